import Verif.Lemmas.ProgramList
import Verif.Props.ProgramSteady
import Verif.Spec.ProgramSteadyAt
/-!
# C122, C123: what the simulator program answers about mints and multisigs at unfinalized slots
-/
namespace LAM.Props
open Spec Token Sim ProcStore
open TokenStore (TOp)

/-- **C122**, as claimed: once the archive is loaded, and while the stream is followed and in order, `getAccountInfo` at the confirmed and
processed commitments shows a mint as of the slot of the commitment, with its owner and lamports. -/
def C122_statement : Prop :=
  ∀ (U : Type) (X : Codecs) (E : Rpc.Externals U) (L : Lz4Block) (decode : Bytes → Option Manifest) (items : List Item)
    (ws : List (Nat × Written)) (evs : List Event) (w : Main) (par : Nat → Nat) (pk owner : Pubkey) (slot lamports : Nat) (bs : Bytes)
    (σ : Orders) (o : SnapshotOrders) (key : Bytes) (config : Option Rpc.AccountConfig) (c : Commitment),
    WellFormedArchive decode items ws → Consistent (tokenOwned (ws.map (·.2))) → Plain evs → ws.length + evs.length < 2 ^ 31 →
    LoadsFirst X decode false evs (Main.start true items) → (Main.start true items).run X decode evs = .ok w → w.serves →
    w.listening = true → SteadyKey MintData ws evs pk → InOrder X par evs pk →
    NowAt ws evs par pk (tipOf (streamed evs) c) slot owner lamports bs →
    E.parse key = some pk → commitmentFor config = c → c ≠ .finalized →
    ∃ u a d sm, Rpc.getAccountInfo X E (storageOf X L σ o w.store) key config = .ok (.ok ⟨slot, some u⟩) ∧
      Shows X E config a u ∧ a.pubkey = pk ∧ a.account.owner = owner ∧ a.account.lamports = lamports ∧
      a.account.data.data X = .ok d ∧ MintLayout bs sm ∧ MintLayout d sm

/-- **C123**, as claimed: the same for a multisig; signers that are zero are moved to the end. -/
def C123_statement : Prop :=
  ∀ (U : Type) (X : Codecs) (E : Rpc.Externals U) (L : Lz4Block) (decode : Bytes → Option Manifest) (items : List Item)
    (ws : List (Nat × Written)) (evs : List Event) (w : Main) (par : Nat → Nat) (pk owner : Pubkey) (slot lamports : Nat) (bs : Bytes)
    (σ : Orders) (o : SnapshotOrders) (key : Bytes) (config : Option Rpc.AccountConfig) (c : Commitment),
    WellFormedArchive decode items ws → Consistent (tokenOwned (ws.map (·.2))) → Plain evs → ws.length + evs.length < 2 ^ 31 →
    LoadsFirst X decode false evs (Main.start true items) → (Main.start true items).run X decode evs = .ok w → w.serves →
    w.listening = true → SteadyKey MultisigData ws evs pk → InOrder X par evs pk →
    NowAt ws evs par pk (tipOf (streamed evs) c) slot owner lamports bs →
    E.parse key = some pk → commitmentFor config = c → c ≠ .finalized →
    ∃ u a d sm sm', Rpc.getAccountInfo X E (storageOf X L σ o w.store) key config = .ok (.ok ⟨slot, some u⟩) ∧
      Shows X E config a u ∧ a.pubkey = pk ∧ a.account.owner = owner ∧ a.account.lamports = lamports ∧
      a.account.data.data X = .ok d ∧ MultisigLayout bs sm ∧ MultisigLayout d sm' ∧ SameMultisig sm sm'

/-- **C122**, the part that holds: the links and forks of the stream are as in C109 and C110. Slots need not be loaded first unless the
finalized state is shown. What is missing: a confirmed slot in which no token account changed cuts the chain, and above the confirmed
slot the store does not look at forks. -/
theorem C122_partial {U : Type} (X : Codecs) (E : Rpc.Externals U) (L : Lz4Block) (decode : Bytes → Option Manifest)
    (items : List Item) (ws : List (Nat × Written)) (evs : List Event) (w : Main) (par : Nat → Nat) (pk owner : Pubkey)
    (slot lamports : Nat) (bs : Bytes) (σ : Orders) (o : SnapshotOrders) (key : Bytes) (config : Option Rpc.AccountConfig) (c : Commitment)
    (ha : WellFormedArchive decode items ws) (hc : Consistent (tokenOwned (ws.map (·.2)))) (hp : Plain evs)
    (hn : ws.length + evs.length < 2 ^ 31)
    (hf : (∀ a k, NewestTrue (streamed evs) par pk (tipOf (streamed evs) c) a k → k ≤ lastFinal (streamed evs)) →
      LoadsFirst X decode false evs (Main.start true items))
    (hr : (Main.start true items).run X decode evs = .ok w) (hs : w.serves) (hl : w.listening = true)
    (hk : SteadyKey MintData ws evs pk) (hio : InOrder X par evs pk)
    (hd : NowAt ws evs par pk (tipOf (streamed evs) c) slot owner lamports bs)
    (hkey : E.parse key = some pk) (hcom : commitmentFor config = c) (hcf : c ≠ .finalized) (hfo : Followed X par evs pk c) :
    ∃ u a d sm, Rpc.getAccountInfo X E (storageOf X L σ o w.store) key config = .ok (.ok ⟨slot, some u⟩) ∧
      Shows X E config a u ∧ a.pubkey = pk ∧ a.account.owner = owner ∧ a.account.lamports = lamports ∧
      a.account.data.data X = .ok d ∧ MintLayout bs sm ∧ MintLayout d sm := by
  obtain ⟨ops, i1, i2, i3⟩ := served_feed ha hp hr hs hl
  have hlen := feed_length i1 hn
  obtain ⟨c1, c2⟩ := followed_found (steady_accepted classified_mint hc hk i1) hio i1 hlen i2 hcf hfo
  cases hd with
  | @recent a k bs hnew hlt hb =>
    obtain ⟨x, ⟨pre, c', post, s0, s0', e1, -, -, -, hcl⟩, hg⟩ := c1 a slot hnew hlt
    obtain ⟨c2', hm, hak, -⟩ := newest_mem_ops hnew
    obtain ⟨p, bs', hpo, hd', hl'⟩ := steady_submitted (X := X) hc hk i1 (o := .update a c') (by rw [e1]; simp) rfl hak
    have : bs' = bs := by rw [hb] at hd'; have := hd'.1; cases this; rfl
    subst this
    obtain ⟨m, sm, rfl, m1, m2, m3, m4⟩ := mint_classified hpo hd' hl' hcl
    obtain ⟨u, g1, g2⟩ := info_some (X := X) (E := E) (L := L) (σ := σ) (o := o) (config := config) (s := w.store)
      (r := mintToSolana m slot 0) hkey (by rw [hcom]; exact hg) rfl
    refine ⟨u, _, mintBytes m, sm, g1, g2, by rw [← hak, ← m2]; rfl, ?_, m4.lamports, rfl, m3, mintBytes_layout m3 m4⟩
    simp only [mintToSolana, solanaAccount, m1, hpo.2]
    cases p <;> rfl
  | final hle hnow =>
    obtain ⟨m, i, sm, p, h1, h2, h3, h4, h5, h6, h7, h8⟩ := mint_read hc hk hio i1 hlen i2 (i3 (hf hle) pk) hnow
    obtain ⟨u, g1, g2⟩ := info_some (X := X) (E := E) (L := L) (σ := σ) (o := o) (config := config) hkey
      (by rw [hcom, c2 hle]; exact h6) rfl
    refine ⟨u, _, mintBytes m, sm, g1, g2, h3, ?_, h8.lamports, rfl, h7, mintBytes_layout h7 h8⟩
    simp only [mintToSolana, solanaAccount, h4, h5]

/-- **C123**, the part that holds: under the same conditions as C122. -/
theorem C123_partial {U : Type} (X : Codecs) (E : Rpc.Externals U) (L : Lz4Block) (decode : Bytes → Option Manifest)
    (items : List Item) (ws : List (Nat × Written)) (evs : List Event) (w : Main) (par : Nat → Nat) (pk owner : Pubkey)
    (slot lamports : Nat) (bs : Bytes) (σ : Orders) (o : SnapshotOrders) (key : Bytes) (config : Option Rpc.AccountConfig) (c : Commitment)
    (ha : WellFormedArchive decode items ws) (hc : Consistent (tokenOwned (ws.map (·.2)))) (hp : Plain evs)
    (hn : ws.length + evs.length < 2 ^ 31)
    (hf : (∀ a k, NewestTrue (streamed evs) par pk (tipOf (streamed evs) c) a k → k ≤ lastFinal (streamed evs)) →
      LoadsFirst X decode false evs (Main.start true items))
    (hr : (Main.start true items).run X decode evs = .ok w) (hs : w.serves) (hl : w.listening = true)
    (hk : SteadyKey MultisigData ws evs pk) (hio : InOrder X par evs pk)
    (hd : NowAt ws evs par pk (tipOf (streamed evs) c) slot owner lamports bs)
    (hkey : E.parse key = some pk) (hcom : commitmentFor config = c) (hcf : c ≠ .finalized) (hfo : Followed X par evs pk c) :
    ∃ u a d sm sm', Rpc.getAccountInfo X E (storageOf X L σ o w.store) key config = .ok (.ok ⟨slot, some u⟩) ∧
      Shows X E config a u ∧ a.pubkey = pk ∧ a.account.owner = owner ∧ a.account.lamports = lamports ∧
      a.account.data.data X = .ok d ∧ MultisigLayout bs sm ∧ MultisigLayout d sm' ∧ SameMultisig sm sm' := by
  obtain ⟨ops, i1, i2, i3⟩ := served_feed ha hp hr hs hl
  have hlen := feed_length i1 hn
  obtain ⟨c1, c2⟩ := followed_found (steady_accepted classified_multisig hc hk i1) hio i1 hlen i2 hcf hfo
  cases hd with
  | @recent a k bs hnew hlt hb =>
    obtain ⟨x, ⟨pre, c', post, s0, s0', e1, -, -, -, hcl⟩, hg⟩ := c1 a slot hnew hlt
    obtain ⟨c2', hm, hak, -⟩ := newest_mem_ops hnew
    obtain ⟨p, bs', hpo, hd', hl'⟩ := steady_submitted (X := X) hc hk i1 (o := .update a c') (by rw [e1]; simp) rfl hak
    have : bs' = bs := by rw [hb] at hd'; have := hd'.1; cases this; rfl
    subst this
    obtain ⟨m, sm, rfl, m1, m2, m3⟩ := multisig_classified hpo hd' hl' hcl
    obtain ⟨r, bs2, sm', r1, r2, r3, r4, r5, r6, r7, r8⟩ := multisig_shown (X := X) (mints := w.store.mints) a.pubkey slot m1 m2 m3
    obtain ⟨u, g1, g2⟩ := info_some (X := X) (E := E) (L := L) (σ := σ) (o := o) (config := config) (s := w.store)
      (r := r) hkey (by rw [hcom, hg]; exact r1) r6.1
    refine ⟨u, r, bs2, sm, sm', by rw [g1, r3], g2, by rw [r2, hak], by rw [r4, hpo.2]; cases p <;> rfl, r5, r6.1, m2, r7, r8⟩
  | final hle hnow =>
    obtain ⟨r, bs', sm, sm', h1, h2, h3, h4, h5, h6, h7, h8, h9, -⟩ := multisig_read hc hk hio i1 hlen i2 (i3 (hf hle) pk) hnow
    obtain ⟨u, g1, g2⟩ := info_some (X := X) (E := E) (L := L) (σ := σ) (o := o) (config := config) hkey
      (by rw [hcom, c2 hle]; exact h1) h6.1
    exact ⟨u, r, bs', sm, sm', by rw [g1, h3], g2, h2, h4, h5, h6.1, h7, h8, h9⟩

/-! ## Samples: the mint changes and `bob` becomes a multisig at slot 4; slot 5 is empty or not -/

def changesAt4 (evs : List Event) : List Event :=
  afterLoading ([messageOf mintThenAcct mintThen.pack, messageOf multisigThenAcct multisigThen.pack, confirms 4 3] ++ evs)

/-- Slot 5 is empty. -/
def emptyAfter : List Event := changesAt4 [confirms 5 4]

/-- `alice` changes at slot 5. -/
def busyAfter : List Event := changesAt4 [aliceAt 5, confirms 5 4]

theorem streamed_emptyAfter : streamed emptyAfter = [.update mintThenAcct .processed, .update multisigThenAcct .processed,
    .slot plainOrders ⟨4, 3, 0⟩ .confirmed, .slot plainOrders ⟨5, 4, 0⟩ .confirmed] := rfl

theorem streamed_busyAfter : streamed busyAfter = [.update mintThenAcct .processed, .update multisigThenAcct .processed,
    .slot plainOrders ⟨4, 3, 0⟩ .confirmed, .update (otherAcct 5 1) .processed, .slot plainOrders ⟨5, 4, 0⟩ .confirmed] := rfl

/-- What the two streams consist of. -/
theorem after_mem {evs : List Event} (he : evs = emptyAfter ∨ evs = busyAfter) {o : TOp} (ho : o ∈ streamed evs) :
    o = .update mintThenAcct .processed ∨ o = .update multisigThenAcct .processed ∨ o = .update (otherAcct 5 1) .processed ∨
    o = .slot plainOrders ⟨4, 3, 0⟩ .confirmed ∨ o = .slot plainOrders ⟨5, 4, 0⟩ .confirmed := by
  rcases he with rfl | rfl
  · rw [streamed_emptyAfter] at ho
    simp only [List.mem_cons, List.not_mem_nil, or_false] at ho
    rcases ho with h | h | h | h <;> simp [h]
  · rw [streamed_busyAfter] at ho
    simp only [List.mem_cons, List.not_mem_nil, or_false] at ho
    rcases ho with h | h | h | h | h <;> simp [h]

theorem after_update {evs : List Event} (he : evs = emptyAfter ∨ evs = busyAfter) {a : AccountData} {c : Commitment}
    (h : TOp.update a c ∈ streamed evs) : a = mintThenAcct ∨ a = multisigThenAcct ∨ a = otherAcct 5 1 := by
  rcases after_mem he h with h | h | h | h | h <;> cases h <;> simp

theorem after_final {evs : List Event} (he : evs = emptyAfter ∨ evs = busyAfter) (σ : Orders) (info : SlotInfo) :
    TOp.slot σ info .finalized ∉ streamed evs := by
  intro hm
  rcases after_mem he hm with h | h | h | h | h <;> cases h

theorem after_plain {evs : List Event} (he : evs = emptyAfter ∨ evs = busyAfter) : Plain evs := by
  intro σ pubkey lamports data compression owner executable rentEpoch slot writeVersion hm
  rcases he with rfl | rfl
  · simp only [emptyAfter, changesAt4, afterLoading, messageOf, confirms, List.cons_append, List.nil_append, List.mem_cons,
      List.not_mem_nil, or_false, reduceCtorEq, false_or, Event.message.injEq, Message.account.injEq, and_false] at hm
    rcases hm with h | h <;> exact h.2.2.2.2.1
  · simp only [busyAfter, changesAt4, afterLoading, aliceAt, messageOf, confirms, List.cons_append, List.nil_append, List.mem_cons,
      List.not_mem_nil, or_false, reduceCtorEq, false_or, Event.message.injEq, Message.account.injEq, and_false] at hm
    rcases hm with h | h | h <;> exact h.2.2.2.2.1

theorem after_order {evs : List Event} (he : evs = emptyAfter ∨ evs = busyAfter) (pk : Pubkey) : InOrder Toy.codecs before evs pk := by
  refine ⟨before_le, ?_, ?_, ?_⟩
  · intro σ info c hm
    rcases after_mem he hm with h | h | h | h | h <;> cases h <;> simp [before]
  · intro pre a c post e _
    rw [lastFinal_none (fun σ info hm => after_final he σ info (by rw [e]; simp [hm]))]
    rcases after_update he (a := a) (c := c) (by rw [e]; simp) with rfl | rfl | rfl <;> decide
  · intro pre σ info post e
    exact absurd (by rw [e]; simp) (after_final he σ info)

theorem after_first {evs : List Event} (he : evs = emptyAfter ∨ evs = busyAfter) :
    LoadsFirst Toy.codecs oneDecode false evs (Main.start true (archiveOf oneFile)) := by
  rintro pre σ slot parent level post e (rfl | ⟨h, -⟩)
  · have : Event.message σ (.slot slot parent .finalized) ∈ evs := by rw [e]; simp
    have h2 : TOp.slot σ ⟨slot, parent, 0⟩ .finalized ∈ streamed evs := List.mem_filterMap.2 ⟨_, this, rfl⟩
    exact absurd h2 (after_final he _ _)
  · simp at h

theorem after_mint {evs : List Event} (he : evs = emptyAfter ∨ evs = busyAfter) : SteadyKey MintData oneAccounts evs Toy.prog := by
  refine ⟨mint_steady.archive, ?_⟩
  · intro a c hm hp
    rcases after_update he hm with rfl | rfl | rfl
    · exact ⟨by simp [mintThenAcct, Toy.acct], .inl rfl, _, rfl, _, mintThen_layout⟩
    · exact absurd hp (by decide +kernel)
    · exact absurd hp (by decide +kernel)

theorem after_multisig {evs : List Event} (he : evs = emptyAfter ∨ evs = busyAfter) : SteadyKey MultisigData oneAccounts evs Toy.bob := by
  refine ⟨multisig_steady.archive, ?_⟩
  · intro a c hm hp
    rcases after_update he hm with rfl | rfl | rfl
    · exact absurd hp (by decide +kernel)
    · exact ⟨by simp [multisigThenAcct, Toy.acct], .inr rfl, _, rfl, _, multisigThen_layout⟩
    · exact absurd hp (by decide +kernel)

theorem after_tip {evs : List Event} (he : evs = emptyAfter ∨ evs = busyAfter) {c : Commitment} (hc : c ≠ .finalized) :
    tipOf (streamed evs) c = 5 ∧ confirmedOf (streamed evs) = 5 ∧ highestSlot (streamed evs) = 5 := by
  rcases he with rfl | rfl <;> cases c <;> first | exact absurd rfl hc | decide +kernel

theorem after_mint_newest {evs : List Event} (he : evs = emptyAfter ∨ evs = busyAfter) :
    NewestTrue (streamed evs) before Toy.prog 5 mintThenAcct 4 := by
  rcases he with rfl | rfl <;> exact .up (by decide +kernel) (.here ⟨[], [], by decide +kernel, by simp, by simp⟩)

theorem after_multisig_newest {evs : List Event} (he : evs = emptyAfter ∨ evs = busyAfter) :
    NewestTrue (streamed evs) before Toy.bob 5 multisigThenAcct 4 := by
  rcases he with rfl | rfl <;> exact .up (by decide +kernel) (.here ⟨[], [], by decide +kernel, by simp, by simp⟩)

theorem after_mint_now {evs : List Event} (he : evs = emptyAfter ∨ evs = busyAfter) {c : Commitment} (hc : c ≠ .finalized) :
    NowAt oneAccounts evs before Toy.prog (tipOf (streamed evs) c) 4 Spl.tokenId 6 mintThen.pack := by
  rw [(after_tip he hc).1]
  exact NowAt.recent (a := mintThenAcct) (after_mint_newest he) (by rw [lastFinal_none (after_final he)]; decide) rfl

theorem after_multisig_now {evs : List Event} (he : evs = emptyAfter ∨ evs = busyAfter) {c : Commitment} (hc : c ≠ .finalized) :
    NowAt oneAccounts evs before Toy.bob (tipOf (streamed evs) c) 4 Spl.token2022Id 8 multisigThen.pack := by
  rw [(after_tip he hc).1]
  exact NowAt.recent (a := multisigThenAcct) (after_multisig_newest he) (by rw [lastFinal_none (after_final he)]; decide) rfl

/-- What `getAccountInfo` answers with this configuration. -/
def infoWith (w : Main) (pk : Pubkey) (config : Option Rpc.AccountConfig) : Run (Except Rpc.Error (Rpc.Response (Option Bytes))) :=
  Rpc.getAccountInfo Toy.codecs bytesExternals (storageOf Toy.codecs plainLz4 plainOrders plainSnapshotOrders w.store) pk.bytes config

/-- The slot of the account that is shown, if any. -/
def slotShown (w : Main) (pk : Pubkey) (config : Option Rpc.AccountConfig) : Option Nat :=
  match infoWith w pk config with
  | .ok (.ok ⟨slot, some _⟩) => some slot
  | _ => none

/-- C122 is false: the mint changed at slot 4, but after the empty slot 5 it is shown as it was in the archive. -/
theorem C122_refuted : ¬ C122_statement := by
  intro h
  obtain ⟨w, hr, hw⟩ := of_check (r := oneRun emptyAfter)
    (p := fun w => isDone w.loader && w.listening && decide (slotShown w Toy.prog confirmedConfig = some 0)) (by decide +kernel)
  simp only [Bool.and_eq_true, decide_eq_true_eq] at hw
  obtain ⟨⟨h1, h2⟩, h3⟩ := hw
  have he : emptyAfter = emptyAfter ∨ emptyAfter = busyAfter := .inl rfl
  obtain ⟨u, a, d, sm, e1, -⟩ := h Bytes Toy.codecs bytesExternals plainLz4 oneDecode (archiveOf oneFile) oneAccounts emptyAfter w before
    Toy.prog _ _ _ _ plainOrders plainSnapshotOrders Toy.prog.bytes confirmedConfig .confirmed one_ok one_consistent (after_plain he)
    (by decide) (after_first he) hr (serves_of h1) h2 (after_mint he) (after_order he _) (after_mint_now he (by simp)) (parse_bytes _) rfl
    (by simp)
  have : slotShown w Toy.prog confirmedConfig = some 4 := by unfold slotShown infoWith; rw [e1]
  rw [h3] at this
  cases this

/-- C123 is false: `bob` is a multisig since slot 4, but after the empty slot 5 nothing is shown. -/
theorem C123_refuted : ¬ C123_statement := by
  intro h
  obtain ⟨w, hr, hw⟩ := of_check (r := oneRun emptyAfter)
    (p := fun w => isDone w.loader && w.listening && decide (slotShown w Toy.bob confirmedConfig = none)) (by decide +kernel)
  simp only [Bool.and_eq_true, decide_eq_true_eq] at hw
  obtain ⟨⟨h1, h2⟩, h3⟩ := hw
  have he : emptyAfter = emptyAfter ∨ emptyAfter = busyAfter := .inl rfl
  obtain ⟨u, a, d, sm, sm', e1, -⟩ := h Bytes Toy.codecs bytesExternals plainLz4 oneDecode (archiveOf oneFile) oneAccounts emptyAfter w before
    Toy.bob _ _ _ _ plainOrders plainSnapshotOrders Toy.bob.bytes confirmedConfig .confirmed one_ok one_consistent (after_plain he)
    (by decide) (after_first he) hr (serves_of h1) h2 (after_multisig he) (after_order he _) (after_multisig_now he (by simp))
    (parse_bytes _) rfl (by simp)
  have : slotShown w Toy.bob confirmedConfig = some 4 := by unfold slotShown infoWith; rw [e1]
  rw [h3] at this
  cases this

/-- The hypotheses of the parts that hold are met if `alice` changes at slot 5. -/
theorem after_followed {pk : Pubkey} {a : AccountData} {c : Commitment} (ha : NewestTrue (streamed busyAfter) before pk 5 a 4)
    (hc : c ≠ .finalized) : Followed Toy.codecs before busyAfter pk c := by
  obtain ⟨-, hC, hH⟩ := after_tip (evs := busyAfter) (.inr rfl) hc
  refine ⟨?_, ?_, ?_⟩
  · intro a' k hk _ i i1 i2 i3
    rw [hC] at hk i1
    have e1 := newest_top before_le hk (i := 4) (.up .here) (newest_submitted ha)
    have e2 := ancestor_le before_le i1
    have e3 := ancestor_le before_le i2
    obtain rfl : i = 5 := by omega
    exact ⟨(streamed busyAfter).take 4, plainOrders, ⟨5, 4, 0⟩, .confirmed, [], rfl, rfl,
      .inr ⟨otherAcct 5 1, .processed, .tail _ (.tail _ (.tail _ (.head _))), by decide, rfl, .inl rfl,
        fun T => ⟨_, _, classify_otherAcct T 5 1⟩⟩, .inr ⟨rfl, by decide +kernel⟩⟩
  · intro _ k hk _ hne
    rw [hC] at hk
    exfalso
    apply hne
    rw [streamed_busyAfter]
    have h1 : mintThenAcct.slot = 4 := rfl
    have h2 : multisigThenAcct.slot = 4 := rfl
    have h3 : (otherAcct 5 1).slot = 5 := rfl
    simp [submittedAt, h1, h2, h3, show 4 ≠ k by omega, show 5 ≠ k by omega]
  · intro _
    rw [hC, hH]
    exact .here

/-- The new supply of the mint is shown at both commitments. -/
example : ∃ w, oneRun busyAfter = .ok w ∧ ∀ config, config = confirmedConfig ∨ config = processedConfig →
    ∃ u a d, infoWith w Toy.prog config = .ok (.ok ⟨4, some u⟩) ∧ Shows Toy.codecs bytesExternals config a u ∧
      a.account.lamports = 6 ∧ a.account.data.data Toy.codecs = .ok d ∧ ∃ sm, MintLayout mintThen.pack sm ∧ MintLayout d sm := by
  obtain ⟨w, hr, hw⟩ := of_check (r := oneRun busyAfter) (p := fun w => isDone w.loader && w.listening) (by decide +kernel)
  simp only [Bool.and_eq_true] at hw
  have he : busyAfter = emptyAfter ∨ busyAfter = busyAfter := .inr rfl
  refine ⟨w, hr, fun config hcfg => ?_⟩
  have hcf : commitmentFor config ≠ .finalized := by rcases hcfg with rfl | rfl <;> decide
  obtain ⟨u, a, d, sm, e1, e2, -, -, e3, e4, e5, e6⟩ := C122_partial Toy.codecs bytesExternals plainLz4 oneDecode (archiveOf oneFile)
    oneAccounts busyAfter w before Toy.prog _ _ _ _ plainOrders plainSnapshotOrders Toy.prog.bytes config _ one_ok one_consistent
    (after_plain he) (by decide) (fun _ => after_first he) hr (serves_of hw.1) hw.2 (after_mint he) (after_order he _)
    (after_mint_now he hcf) (parse_bytes _) rfl hcf (after_followed (after_mint_newest he) hcf)
  exact ⟨u, a, d, e1, e2, e3, e4, sm, e5, e6⟩

/-- The multisig is shown at both commitments. -/
example : ∃ w, oneRun busyAfter = .ok w ∧ ∀ config, config = confirmedConfig ∨ config = processedConfig →
    ∃ u a d, infoWith w Toy.bob config = .ok (.ok ⟨4, some u⟩) ∧ Shows Toy.codecs bytesExternals config a u ∧
      a.account.lamports = 8 ∧ a.account.data.data Toy.codecs = .ok d ∧
      ∃ sm sm', MultisigLayout multisigThen.pack sm ∧ MultisigLayout d sm' ∧ SameMultisig sm sm' := by
  obtain ⟨w, hr, hw⟩ := of_check (r := oneRun busyAfter) (p := fun w => isDone w.loader && w.listening) (by decide +kernel)
  simp only [Bool.and_eq_true] at hw
  have he : busyAfter = emptyAfter ∨ busyAfter = busyAfter := .inr rfl
  refine ⟨w, hr, fun config hcfg => ?_⟩
  have hcf : commitmentFor config ≠ .finalized := by rcases hcfg with rfl | rfl <;> decide
  obtain ⟨u, a, d, sm, sm', e1, e2, -, -, e3, e4, e5, e6, e7⟩ := C123_partial Toy.codecs bytesExternals plainLz4 oneDecode
    (archiveOf oneFile) oneAccounts busyAfter w before Toy.bob _ _ _ _ plainOrders plainSnapshotOrders Toy.bob.bytes config _ one_ok
    one_consistent (after_plain he) (by decide) (fun _ => after_first he) hr (serves_of hw.1) hw.2 (after_multisig he) (after_order he _)
    (after_multisig_now he hcf) (parse_bytes _) rfl hcf (after_followed (after_multisig_newest he) hcf)
  exact ⟨u, a, d, e1, e2, e3, e4, sm, sm', e5, e6, e7⟩

end LAM.Props
