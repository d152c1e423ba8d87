import Verif.Lemmas.ProgramSteady
import Verif.Props.ProgramQuery
/-!
# C114-C116: what the simulator program answers about mints and multisigs
-/
namespace LAM.Props
open Spec Token Sim ProcStore
open TokenStore (TOp)

/-! ## C114, C115: the account itself -/

/-- **C114**. Once the archive is loaded, and while the stream is followed and in order, `getAccountInfo` at the finalized commitment
shows a mint as of the last finalized slot, with its owner and lamports. -/
theorem C114_mint {U : Type} (X : Codecs) (E : Rpc.Externals U) (L : Lz4Block) (decode : Bytes → Option Manifest)
    (items : List Item) (ws : List (Nat × Written)) (evs : List Event) (w : Main) (par : Nat → Nat) (pk owner : Pubkey)
    (lamports : Nat) (bs : Bytes) (σ : Orders) (o : SnapshotOrders) (key : Bytes) (config : Option Rpc.AccountConfig)
    (ha : WellFormedArchive decode items ws) (hc : Consistent (tokenOwned (ws.map (·.2)))) (hp : Plain evs)
    (hn : ws.length + evs.length < 2 ^ 31) (hf : LoadsFirst X decode false evs (Main.start true items))
    (hr : (Main.start true items).run X decode evs = .ok w) (hs : w.serves) (hl : w.listening = true)
    (hk : SteadyKey MintData ws evs pk) (hio : InOrder X par evs pk) (hd : Now ws evs par pk owner lamports bs)
    (hkey : E.parse key = some pk) (hcom : commitmentFor config = .finalized) :
    ∃ u a d sm, Rpc.getAccountInfo X E (storageOf X L σ o w.store) key config = .ok (.ok ⟨lastFinal (streamed evs), some u⟩) ∧
      Shows X E config a u ∧ a.pubkey = pk ∧ a.account.owner = owner ∧ a.account.lamports = lamports ∧
      a.account.data.data X = .ok d ∧ MintLayout bs sm ∧ MintLayout d sm := by
  obtain ⟨ops, i1, i2, i3⟩ := served_feed ha hp hr hs hl
  obtain ⟨m, i, sm, p, h1, h2, h3, h4, h5, h6, h7, h8⟩ := mint_read hc hk hio i1 (feed_length i1 hn) i2 (i3 hf pk) hd
  obtain ⟨u, e1, e2⟩ := info_some (X := X) (E := E) (L := L) (σ := σ) (o := o) (config := config) hkey (by rw [hcom]; exact h6) rfl
  refine ⟨u, _, mintBytes m, sm, e1, e2, h3, ?_, h8.lamports, rfl, h7, mintBytes_layout h7 h8⟩
  simp only [mintToSolana, solanaAccount, h4, h5]

/-- **C115**. Once the archive is loaded, and while the stream is followed and in order, `getAccountInfo` at the finalized commitment
shows a multisig as of the last finalized slot, with its owner and lamports; signers that are zero are moved to the end. -/
theorem C115_multisig {U : Type} (X : Codecs) (E : Rpc.Externals U) (L : Lz4Block) (decode : Bytes → Option Manifest)
    (items : List Item) (ws : List (Nat × Written)) (evs : List Event) (w : Main) (par : Nat → Nat) (pk owner : Pubkey)
    (lamports : Nat) (bs : Bytes) (σ : Orders) (o : SnapshotOrders) (key : Bytes) (config : Option Rpc.AccountConfig)
    (ha : WellFormedArchive decode items ws) (hc : Consistent (tokenOwned (ws.map (·.2)))) (hp : Plain evs)
    (hn : ws.length + evs.length < 2 ^ 31) (hf : LoadsFirst X decode false evs (Main.start true items))
    (hr : (Main.start true items).run X decode evs = .ok w) (hs : w.serves) (hl : w.listening = true)
    (hk : SteadyKey MultisigData ws evs pk) (hio : InOrder X par evs pk) (hd : Now ws evs par pk owner lamports bs)
    (hkey : E.parse key = some pk) (hcom : commitmentFor config = .finalized) :
    ∃ u a d sm sm', Rpc.getAccountInfo X E (storageOf X L σ o w.store) key config = .ok (.ok ⟨lastFinal (streamed evs), some u⟩) ∧
      Shows X E config a u ∧ a.pubkey = pk ∧ a.account.owner = owner ∧ a.account.lamports = lamports ∧
      a.account.data.data X = .ok d ∧ MultisigLayout bs sm ∧ MultisigLayout d sm' ∧ SameMultisig sm sm' := by
  obtain ⟨ops, i1, i2, i3⟩ := served_feed ha hp hr hs hl
  obtain ⟨r, bs', sm, sm', h1, h2, h3, h4, h5, h6, h7, h8, h9, -⟩ := multisig_read hc hk hio i1 (feed_length i1 hn) i2 (i3 hf pk) hd
  obtain ⟨u, e1, e2⟩ := info_some (X := X) (E := E) (L := L) (σ := σ) (o := o) (config := config) hkey (by rw [hcom]; exact h1) h6.1
  exact ⟨u, r, bs', sm, sm', by rw [e1, h3], e2, h2, h4, h5, h6.1, h7, h8, h9⟩

/-! ## C116: the list of mints -/

/-- The request asks for the finalized mints of a token program, without context. -/
structure MintsRequest {U : Type} (X : Codecs) (E : Rpc.Externals U) (key : Bytes) (config : Option Rpc.ProgramConfig)
    (program : Pubkey) (l : List AccountFilterType) : Prop where
  parsed : E.parse key = some program
  token : program = Spl.tokenId ∨ program = Spl.token2022Id
  filters : FiltersFor X config (some l)
  size : .datasize 82 ∈ l
  owner : ∀ pk, ¬ AsksOwner program l pk
  mint : ∀ pk, ¬ AsksMint program l pk
  plain : ¬ WantsContext config
  finalized : commitmentFor (config.map (·.account)) = .finalized

/-- An entry that shows the mint `pk` with this owner, these lamports and this data. -/
def MintEntry {U : Type} (X : Codecs) (E : Rpc.Externals U) (config : Option Rpc.AccountConfig) (pk program : Pubkey) (lamports : Nat)
    (d : Bytes) (k : Rpc.KeyedAccount U) : Prop :=
  k.pubkey = E.text pk ∧ ∃ a, Shows X E config a k.account ∧ a.pubkey = pk ∧ a.account.owner = program ∧
    a.account.lamports = lamports ∧ a.account.data.data X = .ok d

/-- **C116**, as claimed: `getProgramAccounts` for the mints of a token program lists, once each, those that pass the filters as of
the last finalized slot, as they are then, and no others. -/
def C116_statement : Prop :=
  ∀ (U : Type) (X : Codecs) (E : Rpc.Externals U) (L : Lz4Block) (decode : Bytes → Option Manifest) (items : List Item)
    (ws : List (Nat × Written)) (evs : List Event) (w : Main) (σ : Orders) (o : SnapshotOrders) (key : Bytes)
    (config : Option Rpc.ProgramConfig) (program : Pubkey) (l : List AccountFilterType),
    WellFormedArchive decode items ws → Consistent (tokenOwned (ws.map (·.2))) → Plain evs →
    ws.length + evs.length < 2 ^ 31 → LoadsFirst X decode false evs (Main.start true items) →
    (Main.start true items).run X decode evs = .ok w → w.serves → w.listening = true → (∀ p q, E.text p = E.text q → p = q) →
    MintsRequest X E key config program l →
    ∃ shown, Rpc.getProgramAccounts X E (storageOf X L σ o w.store) key config = .ok (.ok (.noContext shown)) ∧
      ∀ par pk owner lamports bs, SteadyKey MintData ws evs pk → InOrder X par evs pk → Now ws evs par pk owner lamports bs →
        ∃ d sm, MintLayout bs sm ∧ MintLayout d sm ∧
        ((owner = program ∧ ∀ f ∈ l, Allows X f d) → ∃ k ∈ shown, MintEntry X E (config.map (·.account)) pk owner lamports d k) ∧
        (∀ k ∈ shown, k.pubkey = E.text pk →
          owner = program ∧ (∀ f ∈ l, Allows X f d) ∧ MintEntry X E (config.map (·.account)) pk owner lamports d k) ∧
        ∀ (i j : Nat) k k', shown[i]? = some k → shown[j]? = some k' → k.pubkey = E.text pk → k'.pubkey = E.text pk → i = j

/-- Mints have different public keys. -/
theorem mints_count {Q : ProgramAccount → Prop} {s : TokenStore} {slots orig : List TokenAccount} (h : Fin Q s slots orig) (pk : Pubkey) :
    s.mints.countP (fun e => decide (e.2.pubkey = pk)) ≤ 1 := by
  have hmem : ∀ e ∈ s.mints, s.table.index.find e.2.pubkey = some e.1 := fun e he =>
    h.mints_idx _ _ (AMap.find_of_mem h.mints_distinct he)
  have hd := h.mints_distinct
  generalize s.mints = l at hmem hd
  induction l with
  | nil => simp
  | cons e l ih =>
    unfold AMap.Distinct at hd
    rw [List.pairwise_cons] at hd
    have ih := ih (fun e he => hmem e (by simp [he])) hd.2
    rw [List.countP_cons]
    split
    · rename_i he
      have : l.countP (fun e => decide (e.2.pubkey = pk)) = 0 := by
        rw [List.countP_eq_zero]
        intro e' he' hp
        simp only [decide_eq_true_eq] at he hp
        have h1 := hmem e (by simp)
        have h2 := hmem e' (by simp [he'])
        rw [he] at h1
        rw [hp, h1] at h2
        exact hd.1 e' he' (by simpa using h2)
      omega
    · omega

theorem filterRun_sublist {α : Type} {f : α → Run Bool} : ∀ {l rs : List α}, TokenStorage.filterRun f l = .ok rs → rs.Sublist l
  | [], rs, h => by simp only [TokenStorage.filterRun, Run.ok.injEq] at h; subst h; exact .slnil
  | x :: xs, rs, h => by
    simp only [TokenStorage.filterRun, Run.bind_eq_ok] at h
    obtain ⟨b, -, ys, h1, h2⟩ := h
    have ih := filterRun_sublist h1
    cases b <;> simp at h2 <;> subst h2
    · exact .cons _ ih
    · exact .cons_cons _ ih

/-- A mint is listed once. -/
theorem mints_once {Q : ProgramAccount → Prop} {X : Codecs} {s : TokenStore} {slots orig : List TokenAccount} {σ : Orders}
    {program pk : Pubkey} {l : List AccountFilterType} {rs : List AccountData} (h : Fin Q s slots orig)
    (h1 : ∀ pk, ¬ AsksOwner program l pk) (h2 : ∀ pk, ¬ AsksMint program l pk)
    (hg : s.getProgramAccounts X σ program (some l) .finalized = .ok (.ok rs)) : rs.countP (fun r => decide (r.pubkey = pk)) ≤ 1 := by
  have hg := (gpa_finalized hg).2
  have e : ownerMintFilter program l = (none, none) := by
    obtain ⟨g1, g2⟩ := C71_recognised program l
    have e1 : (ownerMintFilter program l).1 = none := Option.eq_none_iff_forall_ne_some.2 fun o ho => h1 o ((g1 o).1 ho)
    have e2 : (ownerMintFilter program l).2 = none := Option.eq_none_iff_forall_ne_some.2 fun o ho => h2 o ((g2 o).1 ho)
    exact Prod.ext e1 e2
  unfold TokenStore.gpaFinalized at hg
  simp only [e] at hg
  split at hg
  · simp only [Run.bind_eq_ok] at hg
    obtain ⟨rs', hf, hg⟩ := hg
    cases hg
    refine Nat.le_trans ((filterRun_sublist hf).countP_le) ?_
    rw [List.countP_map]
    exact mints_count h pk
  · cases hg

/-- **C116**, the part that holds: the mints of both programs that pass the filters are listed, once each, as of the last finalized
slot, and no others. What is missing: the program asked for is not looked at. -/
theorem C116_partial {U : Type} (X : Codecs) (E : Rpc.Externals U) (L : Lz4Block) (decode : Bytes → Option Manifest)
    (items : List Item) (ws : List (Nat × Written)) (evs : List Event) (w : Main) (σ : Orders) (o : SnapshotOrders) (key : Bytes)
    (config : Option Rpc.ProgramConfig) (program : Pubkey) (l : List AccountFilterType)
    (ha : WellFormedArchive decode items ws) (hc : Consistent (tokenOwned (ws.map (·.2)))) (hp : Plain evs)
    (hn : ws.length + evs.length < 2 ^ 31) (hf : LoadsFirst X decode false evs (Main.start true items))
    (hr : (Main.start true items).run X decode evs = .ok w) (hs : w.serves) (hl : w.listening = true)
    (ht : ∀ p q, E.text p = E.text q → p = q) (hq : MintsRequest X E key config program l) :
    ∃ shown, Rpc.getProgramAccounts X E (storageOf X L σ o w.store) key config = .ok (.ok (.noContext shown)) ∧
      ∀ par pk owner lamports bs, SteadyKey MintData ws evs pk → InOrder X par evs pk → Now ws evs par pk owner lamports bs →
        ∃ d sm, MintLayout bs sm ∧ MintLayout d sm ∧
        ((∀ f ∈ l, Allows X f d) → ∃ k ∈ shown, MintEntry X E (config.map (·.account)) pk owner lamports d k) ∧
        (∀ k ∈ shown, k.pubkey = E.text pk →
          (∀ f ∈ l, Allows X f d) ∧ MintEntry X E (config.map (·.account)) pk owner lamports d k) ∧
        ∀ (i j : Nat) k k', shown[i]? = some k → shown[j]? = some k' → k.pubkey = E.text pk → k'.pubkey = E.text pk → i = j := by
  obtain ⟨ops, i1, i2, i3⟩ := served_feed ha hp hr hs hl
  have hlen := feed_length i1 hn
  obtain ⟨slots, orig, inv⟩ := reach_inv hlen i2
  obtain ⟨rs, hgpa, hrs⟩ := C57_mints X w.store σ program l hq.token (filters_wellFormed hq.filters) hq.owner hq.mint hq.size
  obtain ⟨shown, s1, s2⟩ := list_shown (S := storageOf X L σ o w.store) hq.parsed hq.filters hq.plain
    (by rw [hq.finalized]; exact hgpa) (fun a h => by
      obtain ⟨i, m, -, rfl, -⟩ := (hrs a).1 h
      exact ⟨_, rfl⟩)
  refine ⟨shown, s1, ?_⟩
  intro par pk owner lamports bs hk hio hd
  obtain ⟨m, i, sm, p, h1, h2, h3, h4, h5, h6, h7, h8⟩ := mint_read hc hk hio i1 hlen i2 (i3 hf pk) hd
  have hent : ∀ k, k.pubkey = E.text pk →
      Shows X E (config.map (·.account)) (mintToSolana m w.store.finalizedSlot 0) k.account →
      MintEntry X E (config.map (·.account)) pk owner lamports (mintBytes m) k := by
    intro k k1 k2
    refine ⟨k1, _, k2, h3, ?_, h8.lamports, rfl⟩
    simp only [mintToSolana, solanaAccount, h4, h5]
  refine ⟨mintBytes m, sm, h7, mintBytes_layout h7 h8, ?_, ?_, ?_⟩
  · intro hall
    obtain ⟨k, k1, k2, k3⟩ := forall₂_left s2 ((hrs _).2 ⟨i, m, AMap.mem_of_find h2, rfl, hall⟩)
    exact ⟨k, k1, hent k (by rw [k2]; exact congrArg E.text h3) k3⟩
  · intro k hk1 hkp
    obtain ⟨a, a1, a2, a3⟩ := forall₂_right s2 hk1
    have apk : a.pubkey = pk := ht _ _ (by rw [← a2, hkp])
    obtain ⟨j, m', b1, rfl, b3⟩ := (hrs a).1 a1
    have e1 := AMap.find_of_mem inv.fin.mints_distinct b1
    have e2 := inv.fin.mints_idx j m' e1
    have e3 : m'.pubkey = pk := apk
    rw [e3, h1] at e2
    cases e2
    rw [h2] at e1
    cases e1
    exact ⟨b3, hent k hkp a3⟩
  · intro i j k k' h1 h2 h3 h4
    exact forall₂_once (q := fun k => k.pubkey = E.text pk) (p := fun r : AccountData => decide (r.pubkey = pk))
      (fun a b hab hb => by simp only [decide_eq_true_eq]; exact ht _ _ (by rw [← hab.1, hb])) s2
      (mints_once inv.fin hq.owner hq.mint hgpa) h1 h2 h3 h4

/-! ## Samples -/

def mintThen : Spl.Mint := ⟨some Toy.bob, 2000, 6, true, none⟩

def multisigThen : Spl.Multisig := ⟨1, 2, true, [Toy.alice, Pubkey.default, Toy.bob] ++ List.replicate 8 Pubkey.default⟩

/-- The mint changes and `bob` becomes a multisig at slot 4. -/
def mintThenAcct : AccountData := Toy.acct Toy.prog Spl.tokenId 6 4 1 mintThen.pack

def multisigThenAcct : AccountData := Toy.acct Toy.bob Spl.token2022Id 8 4 2 multisigThen.pack

def steadyStream : List TOp :=
  [.update mintThenAcct .processed, .update multisigThenAcct .processed, .slot plainOrders ⟨4, 3, 0⟩ .confirmed,
    .slot plainOrders ⟨5, 4, 0⟩ .confirmed, .slot plainOrders ⟨5, 4, 0⟩ .finalized]

def steadyEvents : List Event :=
  [messageOf mintThenAcct mintThen.pack, messageOf multisigThenAcct multisigThen.pack, .load, .load, .load, .load, .load,
    slotMsg 4 .confirmed, slotMsg 5 .confirmed, slotMsg 5 .finalized]

theorem streamed_steady : streamed steadyEvents = steadyStream := rfl

theorem steady_plain : Plain steadyEvents := by
  intro σ pubkey lamports data compression owner executable rentEpoch slot writeVersion hm
  simp only [steadyEvents, messageOf, slotMsg, List.mem_cons, List.not_mem_nil, or_false, reduceCtorEq, Event.message.injEq,
    Message.account.injEq, and_false] at hm
  rcases hm with h | h
  · exact h.2.2.2.2.1
  · exact h.2.2.2.2.1

theorem steady_first (all : Bool) : LoadsFirst Toy.codecs oneDecode all steadyEvents (Main.start true (archiveOf oneFile)) := by
  intro pre σ slot parent level post e _
  have hserve : ∀ n, 7 ≤ n → n ≤ 9 → ∃ w', (Main.start true (archiveOf oneFile)).run Toy.codecs oneDecode (steadyEvents.take n) = .ok w' ∧
      w'.serves := by
    intro n h1 h2
    have hn : n = 7 ∨ n = 8 ∨ n = 9 := by omega
    have hc : returned (oneRun (steadyEvents.take n)) (fun w => isDone w.loader) = true := by
      rcases hn with rfl | rfl | rfl <;> decide +kernel
    obtain ⟨w, hr, hw⟩ := of_check hc
    exact ⟨w, hr, serves_of hw⟩
  have hlen : pre.length < 10 := by
    have : steadyEvents.length = 10 := rfl
    rw [e] at this; simp at this; omega
  have hget : steadyEvents[pre.length]? = some (.message σ (.slot slot parent level)) := by rw [e]; simp
  have hpre : pre = steadyEvents.take pre.length := by rw [e]; simp
  rw [hpre]
  refine hserve _ ?_ (by omega)
  by_contra hlt
  have hn : pre.length = 0 ∨ pre.length = 1 ∨ pre.length = 2 ∨ pre.length = 3 ∨ pre.length = 4 ∨ pre.length = 5 ∨ pre.length = 6 := by omega
  rcases hn with h | h | h | h | h | h | h <;> (rw [h] at hget; simp [steadyEvents, messageOf] at hget)

theorem steady_order {pk : Pubkey} (hpk : pk = Toy.prog ∨ pk = Toy.bob) : InOrder Toy.codecs before steadyEvents pk := by
  refine ⟨before_le, ?_, ?_, ?_⟩ <;> rw [streamed_steady]
  · intro σ info c hm
    simp only [steadyStream, List.mem_cons, List.not_mem_nil, or_false, reduceCtorEq, false_or, TOp.slot.injEq] at hm
    rcases hm with ⟨-, rfl, -⟩ | ⟨-, rfl, -⟩ | ⟨-, rfl, -⟩ <;> simp [before]
  · intro pre a c post e
    refine every_call (ops := steadyStream) (P := fun pre o => ∀ a c, o = .update a c → c ≠ .finalized → lastFinal pre < a.slot) ?_
      pre _ post e a c rfl
    intro n hn a c
    match n, hn with
    | 0, _ | 1, _ => intro h; cases h; intro _; decide +kernel
    | 2, _ | 3, _ | 4, _ => intro h; cases h
  · intro pre σ info post e
    refine every_call (ops := steadyStream) (P := fun pre o => ∀ σ info, o = .slot σ info .finalized → lastFinal pre < info.slot →
      (0 < lastFinal pre → Ancestor before info.slot (lastFinal pre)) ∧
      ∀ i k, Ancestor before info.slot i → Ancestor before i k → i ≠ k → lastFinal pre < k → submittedAt pre pk k ≠ [] →
        (i = info.slot → Known Toy.codecs pre i) ∧ (i ≠ info.slot → LinkNoted Toy.codecs pre i)) ?_ pre _ post e σ info rfl
    intro n hn σ info
    match n, hn with
    | 0, _ | 1, _ | 2, _ | 3, _ => intro h; cases h
    | 4, _ =>
      intro h; cases h
      intro _
      have hF : lastFinal (steadyStream.take 4) = 0 := by decide +kernel
      refine ⟨fun h => by rw [hF] at h; omega, ?_⟩
      intro i k h1 h2 h3 h4 h5
      have e1 := ancestor_before h1
      have e2 := ancestor_before h2
      simp only at e1
      rw [hF] at h4
      have hk : k = 4 := by
        have hk : k = 1 ∨ k = 2 ∨ k = 3 ∨ k = 4 := by omega
        have hnone : submittedAt (steadyStream.take 4) pk 1 = [] ∧ submittedAt (steadyStream.take 4) pk 2 = [] ∧
            submittedAt (steadyStream.take 4) pk 3 = [] := by
          rcases hpk with rfl | rfl <;> decide +kernel
        rcases hk with rfl | rfl | rfl | rfl
        · exact absurd hnone.1 h5
        · exact absurd hnone.2.1 h5
        · exact absurd hnone.2.2 h5
        · rfl
      subst hk
      have hi : i = 5 := by omega
      subst hi
      exact ⟨fun _ => .inl ⟨plainOrders, ⟨5, 4, 0⟩, .confirmed, by simp [steadyStream], rfl⟩, fun h => absurd rfl h⟩

theorem mintThen_layout : MintLayout mintThen.pack mintThen := C45_pack_is_layout.2.1 _ (by decide)

theorem multisigThen_layout : MultisigLayout multisigThen.pack multisigThen := C45_pack_is_layout.2.2 _ (by decide)

theorem update_steady {a : AccountData} {c : Commitment} (h : TOp.update a c ∈ streamed steadyEvents) :
    a = mintThenAcct ∨ a = multisigThenAcct := by
  rw [streamed_steady] at h
  simp only [steadyStream, List.mem_cons, List.not_mem_nil, or_false, reduceCtorEq, TOp.update.injEq] at h
  rcases h with h | h
  · exact .inl h.1
  · exact .inr h.1

theorem mint_steady : SteadyKey MintData oneAccounts steadyEvents Toy.prog := by
  refine ⟨?_, ?_⟩
  · intro w hw hp
    rw [one_owned] at hw
    simp only [List.mem_cons, List.not_mem_nil, or_false] at hw
    rcases hw with rfl | rfl
    · exact ⟨_, mint_layout⟩
    · exact absurd hp (by decide +kernel)
  · intro a c hm hp
    rcases update_steady hm with rfl | rfl
    · exact ⟨by simp [mintThenAcct, Toy.acct], .inl rfl, _, rfl, _, mintThen_layout⟩
    · exact absurd hp (by decide +kernel)

theorem multisig_steady : SteadyKey MultisigData oneAccounts steadyEvents Toy.bob := by
  refine ⟨?_, ?_⟩
  · intro w hw hp
    rw [one_owned] at hw
    simp only [List.mem_cons, List.not_mem_nil, or_false] at hw
    rcases hw with rfl | rfl <;> exact absurd hp (by decide +kernel)
  · intro a c hm hp
    rcases update_steady hm with rfl | rfl
    · exact absurd hp (by decide +kernel)
    · exact ⟨by simp [multisigThenAcct, Toy.acct], .inr rfl, _, rfl, _, multisigThen_layout⟩

theorem mint_now : Now oneAccounts steadyEvents before Toy.prog Spl.tokenId 6 mintThen.pack := by
  refine Now.stream (a := mintThenAcct) (k := 4) (bs := mintThen.pack) ?_ rfl
  rw [streamed_steady, show lastFinal steadyStream = 5 by decide +kernel]
  exact .up (by decide +kernel) (.here ⟨[], [], by decide +kernel, by simp, by simp⟩)

theorem multisig_now : Now oneAccounts steadyEvents before Toy.bob Spl.token2022Id 8 multisigThen.pack := by
  refine Now.stream (a := multisigThenAcct) (k := 4) (bs := multisigThen.pack) ?_ rfl
  rw [streamed_steady, show lastFinal steadyStream = 5 by decide +kernel]
  exact .up (by decide +kernel) (.here ⟨[], [], by decide +kernel, by simp, by simp⟩)

/-- What `getAccountInfo` answers. -/
def infoAnswer (w : Main) (pk : Pubkey) : Run (Except Rpc.Error (Rpc.Response (Option Bytes))) :=
  Rpc.getAccountInfo Toy.codecs bytesExternals (storageOf Toy.codecs plainLz4 plainOrders plainSnapshotOrders w.store) pk.bytes none

theorem parse_bytes (pk : Pubkey) : bytesExternals.parse pk.bytes = some pk := by
  simp [bytesExternals, pk.size]

/-- The new supply of the mint is shown. -/
example : ∃ w u a d sm, oneRun steadyEvents = .ok w ∧ infoAnswer w Toy.prog = .ok (.ok ⟨5, some u⟩) ∧
    Shows Toy.codecs bytesExternals none a u ∧ a.account.lamports = 6 ∧ a.account.data.data Toy.codecs = .ok d ∧
    MintLayout mintThen.pack sm ∧ MintLayout d sm := by
  obtain ⟨w, hr, hw⟩ := of_check (r := oneRun steadyEvents) (p := fun w => isDone w.loader && w.listening) (by decide +kernel)
  simp only [Bool.and_eq_true] at hw
  obtain ⟨u, a, d, sm, e1, e2, -, -, e3, e4, e5, e6⟩ := C114_mint Toy.codecs bytesExternals plainLz4 oneDecode (archiveOf oneFile) oneAccounts
    steadyEvents w before Toy.prog _ _ _ plainOrders plainSnapshotOrders Toy.prog.bytes none one_ok one_consistent steady_plain (by decide)
    (steady_first false) hr (serves_of hw.1) hw.2 mint_steady (steady_order (.inl rfl)) mint_now (parse_bytes _) rfl
  rw [streamed_steady, show lastFinal steadyStream = 5 by decide +kernel] at e1
  exact ⟨w, u, a, d, sm, hr, e1, e2, e3, e4, e5, e6⟩

/-- The multisig is shown; its signers are `alice` and `bob`. -/
example : ∃ w u a d sm, oneRun steadyEvents = .ok w ∧ infoAnswer w Toy.bob = .ok (.ok ⟨5, some u⟩) ∧
    Shows Toy.codecs bytesExternals none a u ∧ a.account.lamports = 8 ∧ a.account.data.data Toy.codecs = .ok d ∧
    MultisigLayout d sm ∧ ∃ sm', MultisigLayout multisigThen.pack sm' ∧ SameMultisig sm' sm := by
  obtain ⟨w, hr, hw⟩ := of_check (r := oneRun steadyEvents) (p := fun w => isDone w.loader && w.listening) (by decide +kernel)
  simp only [Bool.and_eq_true] at hw
  obtain ⟨u, a, d, sm, sm', e1, e2, -, -, e3, e4, e5, e6, e7⟩ := C115_multisig Toy.codecs bytesExternals plainLz4 oneDecode (archiveOf oneFile)
    oneAccounts steadyEvents w before Toy.bob _ _ _ plainOrders plainSnapshotOrders Toy.bob.bytes none one_ok one_consistent steady_plain
    (by decide) (steady_first false) hr (serves_of hw.1) hw.2 multisig_steady (steady_order (.inr rfl)) multisig_now (parse_bytes _) rfl
  rw [streamed_steady, show lastFinal steadyStream = 5 by decide +kernel] at e1
  exact ⟨w, u, a, d, sm', hr, e1, e2, e3, e4, e6, sm, e5, e7⟩

/-- The mints of a program. -/
def mintsRequest : Option Rpc.ProgramConfig := requestOf [.dataSize 82]

theorem mints_request {program : Pubkey} (hp : program = Spl.tokenId ∨ program = Spl.token2022Id) :
    MintsRequest Toy.codecs bytesExternals program.bytes mintsRequest program [.datasize 82] := by
  obtain ⟨h1, h2⟩ := C71_recognised program [.datasize 82]
  refine ⟨parse_bytes _, hp, .cons rfl .nil, by simp, fun m hm => absurd ((h1 m).2 hm) ?_, fun m hm => absurd ((h2 m).2 hm) ?_, ?_, rfl⟩
  · rcases hp with rfl | rfl <;> simp [ownerMintFilter, FilterScan.step]
  · rcases hp with rfl | rfl <;> simp [ownerMintFilter, FilterScan.step]
  · rintro ⟨c, h, h'⟩
    cases h
    simp at h'

theorem mint_listed {program : Pubkey} (hp : program = Spl.tokenId ∨ program = Spl.token2022Id) :
    ∃ w shown, oneRun steadyEvents = .ok w ∧ w.serves ∧ w.listening = true ∧ listAnswer w program mintsRequest = .ok (.ok (.noContext shown)) ∧
      ∃ d, MintLayout d mintThen ∧ ∃ k ∈ shown, MintEntry Toy.codecs bytesExternals (some ⟨none, none, none, none⟩) Toy.prog Spl.tokenId 6 d k := by
  obtain ⟨w, hr, hw⟩ := of_check (r := oneRun steadyEvents) (p := fun w => isDone w.loader && w.listening) (by decide +kernel)
  simp only [Bool.and_eq_true] at hw
  obtain ⟨shown, s1, s2⟩ := C116_partial Toy.codecs bytesExternals plainLz4 oneDecode (archiveOf oneFile) oneAccounts steadyEvents w plainOrders
    plainSnapshotOrders program.bytes mintsRequest program _ one_ok one_consistent steady_plain (by decide) (steady_first false) hr
    (serves_of hw.1) hw.2 text_injective (mints_request hp)
  obtain ⟨d, sm, d1, d2, d3, -⟩ := s2 before Toy.prog _ _ _ mint_steady (steady_order (.inl rfl)) mint_now
  have : sm = mintThen := by
    have e1 := (Spl.unpackMint_iff _ _).2 d1
    have e2 := (Spl.unpackMint_iff _ _).2 mintThen_layout
    rw [e1] at e2; cases e2; rfl
  subst this
  exact ⟨w, shown, hr, serves_of hw.1, hw.2, s1, d, d2, d3 (by simpa [Allows] using d2.length)⟩

/-- The new supply of the mint is listed. -/
example : ∃ w shown, oneRun steadyEvents = .ok w ∧ listAnswer w Spl.tokenId mintsRequest = .ok (.ok (.noContext shown)) ∧
    ∃ d, MintLayout d mintThen ∧ ∃ k ∈ shown, MintEntry Toy.codecs bytesExternals (some ⟨none, none, none, none⟩) Toy.prog Spl.tokenId 6 d k := by
  obtain ⟨w, shown, h1, -, -, h2, h3⟩ := mint_listed (.inl rfl)
  exact ⟨w, shown, h1, h2, h3⟩

/-- C116 is false: the mint belongs to the Token program, but is listed for the Token-2022 program. -/
theorem C116_refuted : ¬ C116_statement := by
  intro h
  obtain ⟨w, shown, h1, h2, h3, h4, d, -, k, hk, hk', -⟩ := mint_listed (.inr rfl)
  obtain ⟨shown', s1, s2⟩ := h Bytes Toy.codecs bytesExternals plainLz4 oneDecode (archiveOf oneFile) oneAccounts steadyEvents w plainOrders
    plainSnapshotOrders Spl.token2022Id.bytes mintsRequest Spl.token2022Id _ one_ok one_consistent steady_plain (by decide) (steady_first false) h1
    h2 h3 text_injective (mints_request (.inr rfl))
  have e : listAnswer w Spl.token2022Id mintsRequest = .ok (.ok (.noContext shown')) := s1
  rw [h4] at e
  cases e
  obtain ⟨_, _, -, -, -, d5, -⟩ := s2 before Toy.prog _ _ _ mint_steady (steady_order (.inl rfl)) mint_now
  exact absurd (d5 k hk hk').1 (by decide +kernel)

end LAM.Props
