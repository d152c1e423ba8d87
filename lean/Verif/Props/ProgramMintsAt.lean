import Verif.Props.ProgramList
import Verif.Props.ProgramSteadyAt
/-!
# C126: which mints the simulator program lists about unfinalized slots
-/
namespace LAM.Props
open Spec Token Sim ProcStore
open TokenStore (TOp)

/-- The request asks for the mints of a token program at the commitment `c`, without context. -/
structure MintsRequestAt {U : Type} (X : Codecs) (E : Rpc.Externals U) (key : Bytes) (config : Option Rpc.ProgramConfig)
    (program : Pubkey) (l : List AccountFilterType) (c : Commitment) : Prop where
  parsed : E.parse key = some program
  token : program = Spl.tokenId ∨ program = Spl.token2022Id
  filters : FiltersFor X config (some l)
  size : .datasize 82 ∈ l
  owner : ∀ pk, ¬ AsksOwner program l pk
  mint : ∀ pk, ¬ AsksMint program l pk
  plain : ¬ WantsContext config
  level : commitmentFor (config.map (·.account)) = c

/-- **C126**, as claimed: once the archive is loaded, and while the stream is followed and in order, `getProgramAccounts` for the mints
of a token program at the confirmed or processed commitment lists, once each, those that pass the filters as of the slot of that
commitment, as they are then, and no others. The conditions under which `getAccountInfo` shows these states (C122) are taken for
granted. -/
def C126_statement : Prop :=
  ∀ (U : Type) (X : Codecs) (E : Rpc.Externals U) (L : Lz4Block) (decode : Bytes → Option Manifest) (items : List Item)
    (ws : List (Nat × Written)) (evs : List Event) (w : Main) (σ : Orders) (o : SnapshotOrders) (key : Bytes)
    (config : Option Rpc.ProgramConfig) (program : Pubkey) (l : List AccountFilterType) (c : Commitment),
    WellFormedArchive decode items ws → Consistent (tokenOwned (ws.map (·.2))) → Plain evs → StreamRespects X ws evs →
    Event.hangUp ∉ evs → ws.length + evs.length < 2 ^ 31 → LoadsFirst X decode true evs (Main.start true items) →
    (∀ σ info c, TOp.slot σ info c ∈ streamed evs → info.parent < info.slot) →
    (Main.start true items).run X decode evs = .ok w → w.serves → (∀ p q, E.text p = E.text q → p = q) → c ≠ .finalized →
    MintsRequestAt X E key config program l c →
    ∃ shown, Rpc.getProgramAccounts X E (storageOf X L σ o w.store) key config = .ok (.ok (.noContext shown)) ∧
      ∀ par pk slot owner lamports bs, SteadyKey MintData ws evs pk → InOrder X par evs pk → Followed X par evs pk c →
        NowAt ws evs par pk (tipOf (streamed evs) c) slot owner lamports bs →
        ∃ d sm, MintLayout bs sm ∧ MintLayout d sm ∧
        ((owner = program ∧ ∀ f ∈ l, Allows X f d) → ∃ k ∈ shown, MintEntry X E (config.map (·.account)) pk owner lamports d k) ∧
        (∀ k ∈ shown, k.pubkey = E.text pk →
          owner = program ∧ (∀ f ∈ l, Allows X f d) ∧ MintEntry X E (config.map (·.account)) pk owner lamports d k) ∧
        ∀ (i j : Nat) k k', shown[i]? = some k → shown[j]? = some k' → k.pubkey = E.text pk → k'.pubkey = E.text pk → i = j

/-- What a read at an unfinalized commitment shows for a mint. -/
theorem mint_read_at {X : Codecs} {par : Nat → Nat} {ws : List (Nat × Written)} {evs : List Event} {ops : List TOp} {pk : Pubkey}
    {s : TokenStore} {owner : Pubkey} {slot lamports : Nat} {bs : Bytes} {c : Commitment} (hc : Consistent (tokenOwned (ws.map (·.2))))
    (hk : SteadyKey MintData ws evs pk) (hio : InOrder X par evs pk) (hi : Interleaved (archived ws) (streamed evs) ops)
    (hn : ops.length < 2 ^ 31) (hr : TokenStore.run X ops .empty = .ok s) (hl : LoadedFirst pk ops) (hcf : c ≠ .finalized)
    (hfo : Followed X par evs pk c) (hd : NowAt ws evs par pk (tipOf (streamed evs) c) slot owner lamports bs) :
    ∃ m sm, m.pubkey = pk ∧ owner = m.program.id ∧ s.getAccount pk c = .ok (some (mintToSolana m slot 0)) ∧ MintLayout bs sm ∧
      MintMatches sm lamports m := by
  obtain ⟨c1, c2⟩ := followed_found (steady_accepted classified_mint hc hk hi) hio hi hn hr hcf hfo
  cases hd with
  | @recent a k bs hnew hlt hb =>
    obtain ⟨x, ⟨pre, c', post, s0, s0', e1, -, -, -, hcl⟩, hg⟩ := c1 a slot hnew hlt
    obtain ⟨c2', hm, hak, -⟩ := newest_mem_ops hnew
    obtain ⟨p, bs', hpo, hd', hl'⟩ := steady_submitted (X := X) hc hk hi (o := .update a c') (by rw [e1]; simp) rfl hak
    have : bs' = bs := by rw [hb] at hd'; have := hd'.1; cases this; rfl
    subst this
    obtain ⟨m, sm, rfl, m1, m2, m3, m4⟩ := mint_classified hpo hd' hl' hcl
    refine ⟨m, sm, by rw [m2, hak], ?_, hg, m3, m4⟩
    rw [hpo.2, m1]
    cases p <;> rfl
  | final hle hnow =>
    obtain ⟨m, i, sm, p, h1, h2, h3, h4, h5, h6, h7, h8⟩ := mint_read hc hk hio hi hn hr hl hnow
    exact ⟨m, sm, h3, by rw [h5, h4], by rw [c2 hle]; exact h6, h7, h8⟩

/-- **C126**, the part that holds: the mints of both programs that pass the filters as of the last finalized slot are listed, once each,
as they are as of the commitment's slot; a mint listed passed the filters as of the last finalized slot. What is missing: mints opened
since, filters as of the commitment's slot, and the program asked for, which is not looked at. -/
theorem C126_partial {U : Type} (X : Codecs) (E : Rpc.Externals U) (L : Lz4Block) (decode : Bytes → Option Manifest)
    (items : List Item) (ws : List (Nat × Written)) (evs : List Event) (w : Main) (σ : Orders) (o : SnapshotOrders) (key : Bytes)
    (config : Option Rpc.ProgramConfig) (program : Pubkey) (l : List AccountFilterType) (c : Commitment)
    (ha : WellFormedArchive decode items ws) (hc : Consistent (tokenOwned (ws.map (·.2)))) (hp : Plain evs)
    (hsr : StreamRespects X ws evs) (hh : Event.hangUp ∉ evs) (hn : ws.length + evs.length < 2 ^ 31)
    (hf : LoadsFirst X decode true evs (Main.start true items))
    (hold : ∀ σ info c, TOp.slot σ info c ∈ streamed evs → info.parent < info.slot)
    (hr : (Main.start true items).run X decode evs = .ok w)
    (hs : w.serves) (ht : ∀ p q, E.text p = E.text q → p = q) (hcf : c ≠ .finalized)
    (hq : MintsRequestAt X E key config program l c) :
    ∃ shown, Rpc.getProgramAccounts X E (storageOf X L σ o w.store) key config = .ok (.ok (.noContext shown)) ∧
      ∀ par pk slot owner lamports bs owner₀ lamports₀ bs₀, SteadyKey MintData ws evs pk → InOrder X par evs pk → Followed X par evs pk c →
        Now ws evs par pk owner₀ lamports₀ bs₀ → NowAt ws evs par pk (tipOf (streamed evs) c) slot owner lamports bs →
        ∃ d sm d₀ sm₀, MintLayout bs sm ∧ MintLayout d sm ∧ MintLayout bs₀ sm₀ ∧ MintLayout d₀ sm₀ ∧
        ((∀ f ∈ l, Allows X f d₀) → ∃ k ∈ shown, MintEntry X E (config.map (·.account)) pk owner lamports d k) ∧
        (∀ k ∈ shown, k.pubkey = E.text pk →
          (∀ f ∈ l, Allows X f d₀) ∧ MintEntry X E (config.map (·.account)) pk owner lamports d k) ∧
        ∀ (i j : Nat) k k', shown[i]? = some k → shown[j]? = some k' → k.pubkey = E.text pk → k'.pubkey = E.text pk → i = j := by
  obtain ⟨hl, ix, n, slots, orig, rdy, inv⟩ := served_ready ha hc hp hsr hh (by omega) hf hr hs
  obtain ⟨ops, i1, i2, i3⟩ := served_feed ha hp hr hs hl
  have hlen := feed_length i1 hn
  obtain ⟨e1, e2⟩ := C53_reads_end_partial X ops w.store (fun σ info c hm => by
    rcases (interleaved_mem i1 _).1 hm with h | h
    · obtain ⟨v, -, h⟩ := archived_kind h
      cases h
    · exact hold σ info c h) i2
  have o1 : ownerMintFilter program l = (none, none) := by
    obtain ⟨g1, g2⟩ := C71_recognised program l
    exact Prod.ext (Option.eq_none_iff_forall_ne_some.2 fun o ho => hq.owner o ((g1 o).1 ho))
      (Option.eq_none_iff_forall_ne_some.2 fun o ho => hq.mint o ((g2 o).1 ho))
  have hw : ∀ l', some l = some l' → (∀ f ∈ l', ∀ d, ∃ b, f.allows X d = .ok b) ∧
      ∀ ow m, ownerMintFilter program l' = (some ow, some m) → w.store.table.index.find m ≠ none := by
    rintro l' e
    cases e
    refine ⟨fun f hf d => ?_, fun ow m e => ?_⟩
    · obtain ⟨b, hb, -⟩ := allows_ok X f d (filters_wellFormed hq.filters l rfl f hf)
      exact ⟨b, hb⟩
    · rw [o1] at e
      cases e
  obtain ⟨fs, hgpa, hfs⟩ := C57_mints X w.store σ program l hq.token (filters_wellFormed hq.filters) hq.owner hq.mint hq.size
  obtain ⟨rs, hgc⟩ := query_answered hgpa (getProgramAccounts_ready (X := X) inv rdy σ program (some l) c hw) (e2 σ program (some l) c)
  obtain ⟨ys, y1, y2⟩ := C69_per_account X ops w.store σ program (some l) c fs rs hlen i2 hcf hgpa hgc (fun f _ => e1 f.pubkey c)
  have ykey : ∀ f r, ShownFor w.store c f (some r) → r.pubkey = f.pubkey := by
    rintro f r (⟨h, -⟩ | h)
    · cases h; rfl
    · exact read_pubkey (r := { r with wv := 0 }) inv h
  obtain ⟨shown, s1, s2⟩ := list_shown (S := storageOf X L σ o w.store) hq.parsed hq.filters hq.plain
    (by rw [hq.level]; exact hgc) (fun a h => (raw_query hgc a h).readable)
  refine ⟨shown, s1, ?_⟩
  intro par pk slot owner lamports bs owner₀ lamports₀ bs₀ hk hio hfo hd₀ hd
  have hlo : LoadedFirst pk ops := i3 (fun pre σ slot parent level post e h => hf pre σ slot parent level post e (.inl (by simpa using h))) pk
  obtain ⟨m₀, i, sm₀, p, h1, h2, h3, h4, h5, h6, h7, h8⟩ := mint_read hc hk hio i1 hlen i2 hlo hd₀
  obtain ⟨m, sm, g1, g2, g3, g4, g5⟩ := mint_read_at hc hk hio i1 hlen i2 hlo hcf hfo hd
  have hent : ∀ a k, a.account = (mintToSolana m slot 0).account → a.pubkey = pk → k.pubkey = E.text a.pubkey →
      Shows X E (config.map (·.account)) a k.account → MintEntry X E (config.map (·.account)) pk owner lamports (mintBytes m) k := by
    intro a k a1 a2 k1 k2
    refine ⟨by rw [k1, a2], a, k2, a2, ?_, by rw [a1]; exact g5.lamports, by rw [a1]; rfl⟩
    rw [a1, g2]
    rfl
  have hshown : ∀ y, ShownFor w.store c (mintToSolana m₀ w.store.finalizedSlot 0) y →
      ∃ r, y = some r ∧ r.pubkey = pk ∧ r.account = (mintToSolana m slot 0).account := by
    rintro y (⟨rfl, h⟩ | h)
    · rw [show (mintToSolana m₀ w.store.finalizedSlot 0).pubkey = pk from h3, g3, h6] at h
      simp only [Run.ok.injEq, Option.some.injEq] at h
      exact ⟨_, rfl, h3, (congrArg AccountData.account h).symm⟩
    · rw [show (mintToSolana m₀ w.store.finalizedSlot 0).pubkey = pk from h3, g3] at h
      cases y with
      | none => cases h
      | some r =>
        simp only [Option.map_some, Run.ok.injEq, Option.some.injEq] at h
        refine ⟨r, rfl, ?_, by rw [h]⟩
        have : r.pubkey = (mintToSolana m slot 0).pubkey := by rw [h]
        rw [this]
        exact g1
  refine ⟨mintBytes m, sm, mintBytes m₀, sm₀, g4, mintBytes_layout g4 g5, h7, mintBytes_layout h7 h8, ?_, ?_, ?_⟩
  · intro hall
    obtain ⟨y, hy, hsh⟩ := forall₂_left y1 ((hfs _).2 ⟨i, m₀, AMap.mem_of_find h2, rfl, hall⟩)
    obtain ⟨r, rfl, r1, r2⟩ := hshown y hsh
    have hr' : r ∈ rs := by rw [y2]; exact List.mem_filterMap.2 ⟨_, hy, rfl⟩
    obtain ⟨k, q1, q2, q3⟩ := forall₂_left s2 hr'
    exact ⟨k, q1, hent r k r2 r1 q2 q3⟩
  · intro k hk1 hkp
    obtain ⟨a, a1, a2, a3⟩ := forall₂_right s2 hk1
    have apk : a.pubkey = pk := ht _ _ (by rw [← a2, hkp])
    obtain ⟨f, hff, hsh⟩ := forall₂_kept y1 (by rw [← y2]; exact a1)
    have fpk : f.pubkey = pk := by rw [← apk]; exact (ykey f a hsh).symm
    obtain ⟨j, m', b1, rfl, b3⟩ := (hfs f).1 hff
    have e1 := AMap.find_of_mem inv.fin.mints_distinct b1
    have e2 := inv.fin.mints_idx j m' e1
    have e3 : m'.pubkey = pk := fpk
    rw [e3, h1] at e2
    cases e2
    rw [h2] at e1
    cases e1
    obtain ⟨r, hr, r1, r2⟩ := hshown _ hsh
    cases hr
    exact ⟨b3, hent a k r2 r1 a2 a3⟩
  · intro i j k k' h1 h2 h3 h4
    refine forall₂_once (q := fun k => k.pubkey = E.text pk) (p := fun r : AccountData => decide (r.pubkey = pk))
      (fun a b hab hb => by simp only [decide_eq_true_eq]; exact ht _ _ (by rw [← hab.1, hb])) s2 ?_ h1 h2 h3 h4
    rw [y2]
    exact Nat.le_trans (kept_count (p := fun r : AccountData => decide (r.pubkey = pk))
      (fun f r h => by rw [ykey f r h]) y1) (mints_once inv.fin hq.owner hq.mint hgpa)

/-! ### Samples: the mint `prog` changes and the mint `prog2` is opened at slot 4, which is confirmed -/

def newMintAcct : AccountData := Toy.acct Toy.prog2 Spl.tokenId 7 4 3 mintThen.pack

def openedMint : List Event :=
  afterLoading [messageOf mintThenAcct mintThen.pack, messageOf newMintAcct mintThen.pack, confirms 4 3]

theorem streamed_opened : streamed openedMint =
    [.update mintThenAcct .processed, .update newMintAcct .processed, .slot plainOrders ⟨4, 3, 0⟩ .confirmed] := rfl

theorem newMint_mem {o : TOp} (ho : o ∈ streamed openedMint) :
    o = .update mintThenAcct .processed ∨ o = .update newMintAcct .processed ∨ o = .slot plainOrders ⟨4, 3, 0⟩ .confirmed := by
  rw [streamed_opened] at ho
  simpa using ho

theorem newMint_plain : Plain openedMint := by
  intro σ pubkey lamports data compression owner executable rentEpoch slot writeVersion hm
  simp only [openedMint, afterLoading, messageOf, confirms, List.cons_append, List.nil_append, List.mem_cons,
    List.not_mem_nil, or_false, reduceCtorEq, false_or, Event.message.injEq, Message.account.injEq, and_false] at hm
  rcases hm with h | h <;> exact h.2.2.2.2.1

theorem newMint_final (σ : Orders) (info : SlotInfo) : TOp.slot σ info .finalized ∉ streamed openedMint := by
  intro hm
  rcases newMint_mem hm with h | h | h <;> cases h

theorem newMint_older : ∀ σ info c, TOp.slot σ info c ∈ streamed openedMint → info.parent < info.slot := by
  intro σ info c hm
  rcases newMint_mem hm with h | h | h <;> cases h
  decide

theorem newMint_order (pk : Pubkey) : InOrder Toy.codecs before openedMint pk := by
  refine ⟨before_le, ?_, ?_, ?_⟩
  · intro σ info c hm
    rcases newMint_mem hm with h | h | h <;> cases h
    simp [before]
  · intro pre a c post e _
    rw [lastFinal_none (fun σ info hm => newMint_final σ info (by rw [e]; simp [hm]))]
    rcases newMint_mem (o := .update a c) (by rw [e]; simp) with h | h | h <;> cases h <;> decide
  · intro pre σ info post e
    exact absurd (by rw [e]; simp) (newMint_final σ info)

theorem newMint_respects : StreamRespects Toy.codecs oneAccounts openedMint := by
  intro a c hm
  have : ∀ sa, ¬ AccountLayout mintThen.pack sa := by
    intro sa h
    have h1 := h.length
    have h2 := mintThen_layout.length
    omega
  rcases newMint_mem hm with h | h | h <;> cases h
  · exact ⟨⟨mintThen.pack, ⟨rfl, rfl⟩, fun sa h => absurd h (this sa)⟩, fun _ => ⟨by simp [mintThenAcct, Toy.acct], .inl rfl⟩⟩
  · exact ⟨⟨mintThen.pack, ⟨rfl, rfl⟩, fun sa h => absurd h (this sa)⟩, fun _ => ⟨by simp [newMintAcct, Toy.acct], .inl rfl⟩⟩

theorem newMint_first (all : Bool) : LoadsFirst Toy.codecs oneDecode all openedMint (Main.start true (archiveOf oneFile)) := by
  intro pre σ slot parent level post e _
  have hlen : pre.length < 8 := by
    have : openedMint.length = 8 := rfl
    rw [e] at this; simp at this; omega
  have hget : openedMint[pre.length]? = some (.message σ (.slot slot parent level)) := by rw [e]; simp
  have hpre : pre = openedMint.take pre.length := by rw [e]; simp
  have hn : pre.length = 7 := by
    by_contra hne
    have hn : pre.length = 0 ∨ pre.length = 1 ∨ pre.length = 2 ∨ pre.length = 3 ∨ pre.length = 4 ∨ pre.length = 5 ∨ pre.length = 6 := by omega
    rcases hn with h | h | h | h | h | h | h <;>
      (rw [h] at hget; simp [openedMint, afterLoading, messageOf] at hget)
  rw [hpre, hn]
  obtain ⟨w, hr, hw⟩ := of_check (r := oneRun (openedMint.take 7)) (p := fun w => isDone w.loader) (by decide +kernel)
  exact ⟨w, hr, serves_of hw⟩

theorem newMint_steady {pk : Pubkey} (hpk : pk = Toy.prog ∨ pk = Toy.prog2) : SteadyKey MintData oneAccounts openedMint pk := by
  refine ⟨?_, ?_⟩
  · intro w hw hp
    rw [one_owned] at hw
    simp only [List.mem_cons, List.not_mem_nil, or_false] at hw
    rcases hw with rfl | rfl
    · exact ⟨_, mint_layout⟩
    · rcases hpk with rfl | rfl <;> exact absurd hp (by decide +kernel)
  · intro a c hm hp
    rcases newMint_mem hm with h | h | h <;> cases h
    · exact ⟨by simp [mintThenAcct, Toy.acct], .inl rfl, _, rfl, _, mintThen_layout⟩
    · exact ⟨by simp [newMintAcct, Toy.acct], .inl rfl, _, rfl, _, mintThen_layout⟩

theorem newMint_confirmed : confirmedOf (streamed openedMint) = 4 := by decide +kernel

theorem newMint_followed {pk : Pubkey} (hpk : pk = Toy.prog ∨ pk = Toy.prog2) : Followed Toy.codecs before openedMint pk .confirmed := by
  refine ⟨?_, by simp, by simp⟩
  intro a k hk _ i i1 i2 i3
  have e1 := newest_top before_le hk (i := 4) (by rw [newMint_confirmed]; exact .here)
    (by rcases hpk with rfl | rfl <;> decide +kernel)
  have e2 := ancestor_le before_le i1
  have e3 := ancestor_le before_le i2
  rw [newMint_confirmed] at e2
  omega

theorem newMint_now {pk : Pubkey} (hpk : pk = Toy.prog ∨ pk = Toy.prog2) : ∃ lamports,
    NowAt oneAccounts openedMint before pk (tipOf (streamed openedMint) .confirmed) 4 Spl.tokenId lamports mintThen.pack := by
  have ht : tipOf (streamed openedMint) .confirmed = 4 := newMint_confirmed
  rw [ht]
  rcases hpk with rfl | rfl
  · exact ⟨_, NowAt.recent (a := mintThenAcct) (.here ⟨[], [], by decide +kernel, by simp, by simp⟩)
      (by rw [lastFinal_none newMint_final]; decide) rfl⟩
  · exact ⟨_, NowAt.recent (a := newMintAcct) (.here ⟨[], [], by decide +kernel, by simp, by simp⟩)
      (by rw [lastFinal_none newMint_final]; decide) rfl⟩

/-- The mints of a program, confirmed. -/
def mintsConfirmed : Option Rpc.ProgramConfig := some ⟨some [.dataSize 82], ⟨none, none, some .confirmed, none⟩, none⟩

theorem mints_confirmed : MintsRequestAt Toy.codecs bytesExternals Spl.tokenId.bytes mintsConfirmed Spl.tokenId [.datasize 82] .confirmed := by
  have h := mints_request (program := Spl.tokenId) (.inl rfl)
  refine ⟨h.parsed, h.token, .cons rfl .nil, h.size, h.owner, h.mint, ?_, rfl⟩
  rintro ⟨c, h, h'⟩
  cases h
  simp at h'

/-- The keys and supplies of the mints listed, if any. -/
def suppliesShown (w : Main) (config : Option Rpc.ProgramConfig) : Option (List (Bytes × Nat)) :=
  match listAnswer w Spl.tokenId config with
  | .ok (.ok (.noContext l)) => some (l.map (fun k => (k.pubkey, leNat (field k.account 36 8))))
  | _ => none

/-- C126 is false: the mint `prog2` is opened at slot 4, which is confirmed, but it is not listed. -/
theorem C126_refuted : ¬ C126_statement := by
  intro h
  obtain ⟨w, hr, hw⟩ := of_check (r := oneRun openedMint)
    (p := fun w => isDone w.loader && decide (suppliesShown w mintsConfirmed = some [(Toy.prog.bytes, 2000)])) (by decide +kernel)
  simp only [Bool.and_eq_true, decide_eq_true_eq] at hw
  obtain ⟨h1, h2⟩ := hw
  obtain ⟨shown, s1, s2⟩ := h Bytes Toy.codecs bytesExternals plainLz4 oneDecode (archiveOf oneFile) oneAccounts openedMint w plainOrders
    plainSnapshotOrders Spl.tokenId.bytes mintsConfirmed Spl.tokenId _ .confirmed one_ok one_consistent newMint_plain newMint_respects
    (by simp [openedMint, afterLoading, confirms, messageOf]) (by decide) (newMint_first true) newMint_older
    hr (serves_of h1) text_injective (by decide) mints_confirmed
  have e : listAnswer w Spl.tokenId mintsConfirmed = .ok (.ok (.noContext shown)) := s1
  rw [suppliesShown, e] at h2
  simp only [Option.some.injEq] at h2
  obtain ⟨lamports, hnow⟩ := newMint_now (.inr rfl)
  obtain ⟨d, sm, d1, d2, d3, -⟩ := s2 before Toy.prog2 4 _ lamports _ (newMint_steady (.inr rfl)) (newMint_order _) (newMint_followed (.inr rfl)) hnow
  obtain ⟨k, hk, hp, -⟩ := d3 ⟨rfl, by simpa [Allows] using d2.length⟩
  have hm : (k.pubkey, leNat (field k.account 36 8)) ∈ shown.map (fun k => (k.pubkey, leNat (field k.account 36 8))) :=
    List.mem_map.2 ⟨k, hk, rfl⟩
  rw [h2, hp] at hm
  simp only [List.mem_singleton, Prod.mk.injEq] at hm
  exact absurd hm.1 (show bytesExternals.text Toy.prog2 ≠ Toy.prog.bytes by decide +kernel)

/-- In the sample the new supply of `prog`, confirmed but not finalized, is listed. -/
example : ∃ w shown, oneRun openedMint = .ok w ∧ listAnswer w Spl.tokenId mintsConfirmed = .ok (.ok (.noContext shown)) ∧
    ∃ d, MintLayout d mintThen ∧ ∃ lamports, ∃ k ∈ shown,
      MintEntry Toy.codecs bytesExternals (some ⟨none, none, some .confirmed, none⟩) Toy.prog Spl.tokenId lamports d k := by
  obtain ⟨w, hr, hw⟩ := of_check (r := oneRun openedMint) (p := fun w => isDone w.loader) (by decide +kernel)
  obtain ⟨shown, s1, s2⟩ := C126_partial Toy.codecs bytesExternals plainLz4 oneDecode (archiveOf oneFile) oneAccounts openedMint w plainOrders
    plainSnapshotOrders Spl.tokenId.bytes mintsConfirmed Spl.tokenId _ .confirmed one_ok one_consistent newMint_plain newMint_respects
    (by simp [openedMint, afterLoading, confirms, messageOf]) (by decide) (newMint_first true) newMint_older
    hr (serves_of hw) text_injective (by decide) mints_confirmed
  have hcur : Now oneAccounts openedMint before Toy.prog wMint.owner wMint.lamports wMint.data := by
    refine Now.archive (w := wMint) ?_ ⟨[], [wToken Toy.alice 12], one_owned, by
      intro v hv
      simp only [List.mem_singleton] at hv
      subst hv
      decide +kernel⟩ (by decide +kernel)
    intro a k hk
    rw [lastFinal_none newMint_final] at hk
    have hz : ∀ t a k, NewestTrue (streamed openedMint) before Toy.prog t a k → t = 0 → k = 0 := by
      intro t a k h
      induction h with
      | here _ => exact id
      | up _ _ ih => rintro rfl; exact ih rfl
    obtain rfl := hz _ _ _ hk rfl
    exact newest_submitted hk (by decide +kernel)
  obtain ⟨lamports, hnow⟩ := newMint_now (.inl rfl)
  obtain ⟨d, sm, d₀, sm₀, d1, d2, d3, d4, d5, -⟩ := s2 before Toy.prog 4 _ lamports _ _ _ _ (newMint_steady (.inl rfl)) (newMint_order _)
    (newMint_followed (.inl rfl)) hcur hnow
  have : sm = mintThen := by
    have e1 := (Spl.unpackMint_iff _ _).2 d1
    have e2 := (Spl.unpackMint_iff _ _).2 mintThen_layout
    rw [e1] at e2; cases e2; rfl
  subst this
  exact ⟨w, shown, hr, s1, d, d2, lamports, d5 (by simpa [Allows] using d4.length)⟩

/-- **C126**. In the sample `getAccountInfo` shows the mint `prog2`, which is not listed. -/
theorem C126_opened_missed : ∃ w, oneRun openedMint = .ok w ∧ w.serves ∧ w.listening = true ∧
    slotShown w Toy.prog2 confirmedConfig = some 4 ∧ suppliesShown w mintsConfirmed = some [(Toy.prog.bytes, 2000)] := by
  obtain ⟨w, hr, hw⟩ := of_check (r := oneRun openedMint)
    (p := fun w => isDone w.loader && w.listening && decide (slotShown w Toy.prog2 confirmedConfig = some 4) &&
      decide (suppliesShown w mintsConfirmed = some [(Toy.prog.bytes, 2000)])) (by decide +kernel)
  simp only [Bool.and_eq_true, decide_eq_true_eq] at hw
  exact ⟨w, hr, serves_of hw.1.1.1, hw.1.1.2, hw.1.2, hw.2⟩

/-- The mints of a program with this supply, confirmed. -/
def suppliedWith (supply : Nat) : Option Rpc.ProgramConfig :=
  some ⟨some [.dataSize 82, .memcmp 36 (.bytes (leBytes 8 supply))], ⟨none, none, some .confirmed, none⟩, none⟩

/-- **C126**. Filters are matched with the finalized state: the mint is listed for its former supply, showing the new one, and is not listed
for the new one. -/
theorem C126_former_filter : ∃ w, oneRun openedMint = .ok w ∧ w.serves ∧ w.listening = true ∧
    suppliesShown w (suppliedWith 1000) = some [(Toy.prog.bytes, 2000)] ∧ suppliesShown w (suppliedWith 2000) = some [] := by
  obtain ⟨w, hr, hw⟩ := of_check (r := oneRun openedMint)
    (p := fun w => isDone w.loader && w.listening && decide (suppliesShown w (suppliedWith 1000) = some [(Toy.prog.bytes, 2000)]) &&
      decide (suppliesShown w (suppliedWith 2000) = some [])) (by decide +kernel)
  simp only [Bool.and_eq_true, decide_eq_true_eq] at hw
  exact ⟨w, hr, serves_of hw.1.1.1, hw.1.1.2, hw.1.2, hw.2⟩

end LAM.Props
