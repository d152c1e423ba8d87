import Verif.Spec.ProgramSnapshot
import Verif.Props.TokenSnapshotFits
import Verif.Props.ProgramSteady
/-!
# C119: the snapshots of the simulator program
-/
namespace LAM.Props
open Spec Token Sim ProcStore
open TokenStore (TOp)

/-- The snapshot of the Token program is small enough to be compressed. -/
def SmallSnapshot (o : SnapshotOrders) (s : TokenStore) : Prop :=
  ∀ x, s.snapshotOf o .tokenProgram = .ok x → (encSnapshot x).length ≤ 0x7E000000

/-- **C119**, as claimed: once the archive is loaded, and while the stream is followed and in order, `getSnapshot` for the Token
program answers with the base64 text of bytes that can be loaded into an empty store, which then shows the token accounts, mints
and multisigs of the program as of the last finalized slot. -/
def C119_statement : Prop :=
  ∀ (U : Type) (X : Codecs) (E : Rpc.Externals U) (L : Lz4Block) (decode : Bytes → Option Manifest) (items : List Item)
    (ws : List (Nat × Written)) (evs : List Event) (w : Main) (σ : Orders) (o : SnapshotOrders) (key : Bytes),
    L.Lawful → WellFormedArchive decode items ws → Consistent (tokenOwned (ws.map (·.2))) → Plain evs → StreamRespects X ws evs →
    StreamTyped ws evs → Event.hangUp ∉ evs → ws.length + evs.length < 2 ^ 31 → LoadsFirst X decode true evs (Main.start true items) →
    (Main.start true items).run X decode evs = .ok w → w.serves → SmallSnapshot o w.store → E.parse key = some Spl.tokenId →
    ∃ c s', Rpc.getSnapshot E (storageOf X L σ o w.store) key = .ok (.ok (E.base64 c)) ∧
      TokenStore.empty.loadFromSnapshot L c = .ok (s', .ok ()) ∧
      (∀ par pk d, TokenKey ws evs pk → InOrder X par evs pk → Current ws evs par pk d →
        (∀ q bs, d = some (q, bs) → q = Spl.tokenId) → ShowsToken X s' pk d) ∧
      (∀ par pk lamports bs, SteadyKey MultisigData ws evs pk → InOrder X par evs pk →
        Now ws evs par pk Spl.tokenId lamports bs → ShowsMultisig X s' pk Spl.tokenId lamports bs) ∧
      ∀ par pk lamports bs, SteadyKey MintData ws evs pk → InOrder X par evs pk →
        Now ws evs par pk Spl.tokenId lamports bs → ShowsMint X s' pk Spl.tokenId lamports bs

theorem layout_fits {content : Bytes} {len : Nat} (ws : List Written) {off : Nat} (h : Layout content len off ws) :
    ∀ w ∈ ws, w.lamports < 2 ^ 64 := by
  induction ws generalizing off with
  | nil => simp
  | cons v ws ih =>
    obtain ⟨h1, -, -, h2⟩ := h
    intro w hw
    rcases List.mem_cons.1 hw with rfl | hw
    · exact h1.lamports
    · exact ih h2 w hw

theorem contains_fits {m : Manifest} {items : List Item} {ws : List (Nat × Written)} (h : Contains m items ws) :
    ∀ w ∈ ws, w.2.lamports < 2 ^ 64 := by
  induction h with
  | nil => simp
  | other _ _ ih => exact ih
  | file _ _ _ _ hw _ ih =>
    intro v hv
    rcases List.mem_append.1 hv with hv | hv
    · obtain ⟨u, hu, rfl⟩ := List.mem_map.1 hv
      exact layout_fits _ hw u hu
    · exact ih v hv

/-- A mint that is classified belongs to the program that owns the account. -/
theorem classify_mint_program {X : Codecs} {T T' : MintTable} {a : AccountData} {m : MintAccount}
    (h : classify X T a = .ok (some (.mint m), T')) (ho : a.account.owner ≠ Spl.token2022Id) : m.program = .tokenProgram := by
  unfold classify at h
  split at h
  · cases h
  · simp only [Run.bind_eq_ok] at h
    obtain ⟨bs, -, h⟩ := h
    split at h
    · split at h
      · cases h
      · cases h; rfl
    · split at h
      · split at h <;> cases h
      · split at h <;> cases h

theorem streamed_not_init {evs : List Event} (b : AccountData) : TOp.init b ∉ streamed evs := by
  intro h
  simp only [streamed, List.mem_filterMap] at h
  obtain ⟨e, -, h⟩ := h
  cases e with
  | message σ m =>
    cases m with
    | slot s p l => cases l <;> cases h
    | _ => cases h
  | _ => cases h

/-- **C119**, the part that holds: `getSnapshot` answers, and if the size of the snapshot is put in front of the bytes, they can be
loaded into an empty store, which then shows the token accounts and multisigs of the program as of the last finalized slot, and no
account where there is none. What is missing: the size, which the loader needs and the answer does not have, and the mints. -/
theorem C119_partial {U : Type} (X : Codecs) (E : Rpc.Externals U) (L : Lz4Block) (decode : Bytes → Option Manifest)
    (items : List Item) (ws : List (Nat × Written)) (evs : List Event) (w : Main) (σ : Orders) (o : SnapshotOrders) (key : Bytes)
    (hL : L.Lawful) (ha : WellFormedArchive decode items ws) (hc : Consistent (tokenOwned (ws.map (·.2)))) (hp : Plain evs)
    (hsr : StreamRespects X ws evs) (hty : StreamTyped ws evs) (hh : Event.hangUp ∉ evs) (hn : ws.length + evs.length < 2 ^ 31)
    (hf : LoadsFirst X decode true evs (Main.start true items)) (hr : (Main.start true items).run X decode evs = .ok w)
    (hs : w.serves) (hsm : SmallSnapshot o w.store) (hpk : E.parse key = some Spl.tokenId) :
    ∃ n c s', Rpc.getSnapshot E (storageOf X L σ o w.store) key = .ok (.ok (E.base64 c)) ∧
      TokenStore.empty.loadFromSnapshot L (leBytes 4 n ++ c) = .ok (s', .ok ()) ∧
      (∀ par pk d, TokenKey ws evs pk → InOrder X par evs pk → Current ws evs par pk d →
        (∀ q bs, d = some (q, bs) → q = Spl.tokenId) → ShowsToken X s' pk d) ∧
      (∀ par pk owner lamports bs, SteadyKey MultisigData ws evs pk → InOrder X par evs pk →
        Now ws evs par pk owner lamports bs → ShowsMultisig X s' pk owner lamports bs) := by
  obtain ⟨hl, ix, n, slots, orig, rdy, inv⟩ := served_ready ha hc hp hsr hh (by omega) hf hr hs
  obtain ⟨ops, i1, i2, i3⟩ := served_feed ha hp hr hs hl
  have hlen := feed_length i1 hn
  -- what is stored
  let Q : ProgramAccount → Prop := fun x => ∀ m, x = .mint m → ArchiveMint ws m.pubkey → m.program = .tokenProgram
  have hQ : ∀ op ∈ ops, ∀ a, op.account = some a → ∀ T y T', classify X T a = .ok (some y, T') → Q y := by
    rintro op ho a h T y T' hcl m rfl hm
    have hk := (classify_some hcl).1
    simp only [ProgramAccount.pubkey] at hk
    refine classify_mint_program hcl ?_
    rcases (interleaved_mem i1 _).1 ho with h' | h'
    · obtain ⟨v, hv, rfl⟩ := archived_kind h'
      cases h
      have := (List.mem_filter.1 hv).2
      simp only [decide_eq_true_eq] at this
      simp only [Written.submitted, this]
      decide +kernel
    · cases op with
      | update b c => cases h; exact (hty _ _ h').2 (by rw [← hk]; exact hm)
      | init b => exact absurd h' (streamed_not_init b)
      | slot => cases h
  have hst : Stocked Q w.store := run_stocked ops (inv_empty Q) stocked_empty (by omega) hQ i2
  have hu : ∀ op ∈ ops, ∀ a, submittedBy op = some a → a.account.lamports < 2 ^ 64 := by
    intro op ho a h
    rcases (interleaved_mem i1 _).1 ho with h' | h'
    · obtain ⟨v, hv, rfl⟩ := archived_kind h'
      cases h
      obtain ⟨u, hu, rfl⟩ := List.mem_map.1 (List.mem_filter.1 hv).1
      obtain ⟨_, _, _, _, _, -, -, -, -, hcon⟩ := ha
      exact contains_fits hcon u hu
    · cases op with
      | update b c => cases h; exact (hty _ _ h').1
      | init b => exact absurd h' (streamed_not_init b)
      | slot => cases h
  -- the snapshot
  have hx := snapshotOf_eq inv.fin o .tokenProgram
  set x : TokenSnapshot := ⟨o.mints (w.store.mints.filter (fun e => e.2.program = .tokenProgram)),
    o.multisigs (w.store.multisigs.map (·.2)), (chosen .tokenProgram slots).map TokenAccount.toBytes⟩ with hxdef
  have hsz := hsm x hx
  obtain ⟨c, hcomp⟩ := hL.compresses _ hsz
  have hfit : SnapshotFits x := C58_fits o X ops w.store .tokenProgram x hlen i2 hu hx (by omega)
  have hk : ∀ b ∈ x.tokens, ∃ t m, TokenAccount.fromBytes b = .ok t ∧ w.store.mints.find t.mint = some m ∧ m.program = .tokenProgram := by
    intro b hb
    obtain ⟨t, ht, rfl⟩ := List.mem_map.1 hb
    obtain ⟨t1, t2⟩ := List.mem_filter.1 ht
    simp only [Bool.and_eq_true, decide_eq_true_eq, Bool.not_eq_true'] at t2
    rcases inv.fin.slotsQ t t1 with rfl | ⟨⟨mint, m1, m2, -⟩, -, -⟩
    · simp [TokenStorage.tombstone] at t2
    · have hix := rdy.known mint m1
      cases hm : w.store.mints.find (ix mint) with
      | none => exact absurd hm (rdy.full _ _ hix)
      | some m =>
        refine ⟨t, m, fromBytes_toBytes (inv.fin.holds.fits t t1), by rw [m2, hm], ?_⟩
        have := inv.fin.idx_inj _ _ _ (inv.fin.mints_idx _ _ hm) hix
        exact hst.mint _ _ hm m rfl (by rw [this]; exact m1)
  obtain ⟨s', l1, l2⟩ := C58_accounts_partial L o X ops w.store .tokenProgram x hlen i2 hx hfit hk
  have hback := C58_with_size L hL _ _ hsz hcomp
  have hload := l1 _ hback
  have hpl : TokenStore.empty.loadSnapshot x = .ok s' := by
    unfold TokenStore.loadFromSnapshot at hload
    rw [hback] at hload
    simp only [decSnapshot_enc hfit] at hload
    obtain ⟨s1, e1, e2⟩ := Run.bind_eq_ok.1 hload
    simp at e2
    rw [e1, e2]
  refine ⟨(encSnapshot x).length, c, s', ?_, hload, ?_, ?_⟩
  · simp only [Rpc.getSnapshot, hpk, storageOf]
    rw [TokenStore.createSnapshot, show TokenStore.programOf Spl.tokenId = some .tokenProgram from rfl]
    simp only [hx, Run.ok_bind, hcomp, Run.pure_eq]
  · intro par pk d hkey hio hd hown
    have hlo : LoadedFirst pk ops := i3 (fun pre σ slot parent level post e h => hf pre σ slot parent level post e (.inl (by simpa using h))) pk
    obtain ⟨f1, f2⟩ := feed_read hc hsr hkey hio i1 hlen i2 (fun _ _ => hlo) hd
    have htw : NoTwinClosed X pk ops := feed_noTwin hc hkey i1
    obtain ⟨j1, j2, -⟩ := stream_only ops hlen (feed_only hc hsr hkey i1) i2
    cases d with
    | none => exact C58_absent_partial o X ops w.store s' .tokenProgram x pk hlen i2 hx hk hpl htw (f1 rfl)
    | some q =>
      obtain ⟨q, bs⟩ := q
      obtain ⟨r, bs', sa, sa', k1, k2, -, k4, k5, k6, k7, k8⟩ := f2 q bs rfl
      have hq := hown q bs rfl
      subst hq
      exact ⟨_, bs', sa, sa', l2 pk r k1 (.inr ⟨k4, j2⟩), k2, k4, k5, k6, k7, k8⟩
  · intro par pk owner lamports bs hkey hio hd
    have hlo : LoadedFirst pk ops := i3 (fun pre σ slot parent level post e h => hf pre σ slot parent level post e (.inl (by simpa using h))) pk
    obtain ⟨r, bs', sm, sm', k1, k2, -, k4, k5, k6, k7, k8, k9, k10⟩ := multisig_read hc hkey hio i1 hlen i2 hlo hd
    exact ⟨_, bs', sm, sm', l2 pk r k1 (.inl k10), k2, k4, k5, k6, k7, k8, k9⟩

/-! ### Samples -/

/-- The snapshot in the answer to `getSnapshot`. -/
def snapshotAnswer (w : Main) : Run (Except Rpc.Error Bytes) :=
  Rpc.getSnapshot bytesExternals (storageOf Toy.codecs plainLz4 plainOrders plainSnapshotOrders w.store) Spl.tokenId.bytes

/-- What is answered, loaded into an empty store; with the size in front if `sized`. -/
def reloaded (w : Main) (sized : Bool) : Option (TokenStore × Except LoadError Unit) :=
  match snapshotAnswer w with
  | .ok (.ok c) =>
    match TokenStore.empty.loadFromSnapshot plainLz4 (if sized then leBytes 4 c.length ++ c else c) with
    | .ok r => some r
    | _ => none
  | _ => none

/-- The snapshot is small. -/
def isSmall (w : Main) : Bool :=
  match w.store.snapshotOf plainSnapshotOrders .tokenProgram with
  | .ok x => decide ((encSnapshot x).length ≤ 1000)
  | _ => true

theorem small_of {w : Main} (h : isSmall w = true) : SmallSnapshot plainSnapshotOrders w.store := by
  intro x hx
  rw [isSmall, hx] at h
  simp only [decide_eq_true_eq] at h
  omega

theorem typed_before : StreamTyped oneAccounts loadedBefore := by
  intro a c hm
  rw [streamed_before] at hm
  obtain rfl := update_stream hm
  exact ⟨by decide, fun _ => by decide +kernel⟩

/-- C119 is false: the loader takes the first bytes of the snapshot for its size. -/
theorem C119_refuted : ¬ C119_statement := by
  intro h
  obtain ⟨w, hr, hw⟩ := of_check (r := oneRun loadedBefore)
    (p := fun w => isDone w.loader && isSmall w && (match reloaded w false with | some (_, .ok ()) => false | _ => true)) (by decide +kernel)
  simp only [Bool.and_eq_true] at hw
  obtain ⟨⟨h1, h2⟩, h3⟩ := hw
  obtain ⟨c, s', e1, e2, -⟩ := h Bytes Toy.codecs bytesExternals plainLz4 oneDecode (archiveOf oneFile) oneAccounts loadedBefore w plainOrders
    plainSnapshotOrders Spl.tokenId.bytes plainLz4_lawful one_ok one_consistent plain_before
    (one_respects (fun a c hm => by rw [streamed_before] at hm; exact update_stream hm)) typed_before
    (by simp [loadedBefore, aliceChanges, messageOf, slotMsg]) (by decide) (before_first true) hr (serves_of h1) (small_of h2) (parse_bytes _)
  have : reloaded w false = some (s', .ok ()) := by
    unfold reloaded
    rw [show snapshotAnswer w = .ok (.ok c) from e1]
    simp [e2]
  rw [this] at h3
  cases h3

/-- **C119**. In the sample `getAccountInfo` shows the mint; after loading the snapshot with its size in front it is not there. -/
theorem C119_mint_missed : ∃ w s', oneRun loadedBefore = .ok w ∧ w.serves ∧ w.listening = true ∧
    (∃ u, infoAnswer w Toy.prog = .ok (.ok ⟨5, some u⟩)) ∧ reloaded w true = some (s', .ok ()) ∧
    s'.getAccount Toy.prog .finalized = .ok none := by
  obtain ⟨w, hr, hw⟩ := of_check (r := oneRun loadedBefore)
    (p := fun w => isDone w.loader && w.listening && (match infoAnswer w Toy.prog with | .ok (.ok ⟨5, some _⟩) => true | _ => false) &&
      (match reloaded w true with | some (s', .ok ()) => decide (s'.getAccount Toy.prog .finalized = .ok none) | _ => false)) (by decide +kernel)
  simp only [Bool.and_eq_true] at hw
  obtain ⟨⟨⟨h1, h2⟩, h3⟩, h4⟩ := hw
  split at h3
  · rename_i u hu
    split at h4
    · rename_i s' hs'
      exact ⟨w, s', hr, serves_of h1, h2, ⟨u, hu⟩, hs', by simpa using h4⟩
    · cases h4
  · cases h3

/-- In the sample the 99 of `alice` is shown after loading. -/
example : ∃ w n c s', oneRun loadedBefore = .ok w ∧ snapshotAnswer w = .ok (.ok c) ∧
    TokenStore.empty.loadFromSnapshot plainLz4 (leBytes 4 n ++ c) = .ok (s', .ok ()) ∧
    ShowsToken Toy.codecs s' Toy.alice (some (Spl.tokenId, otherBytes)) := by
  obtain ⟨w, hr, hw⟩ := of_check (r := oneRun loadedBefore) (p := fun w => isDone w.loader && isSmall w) (by decide +kernel)
  simp only [Bool.and_eq_true] at hw
  obtain ⟨n, c, s', e1, e2, e3, -⟩ := C119_partial Toy.codecs bytesExternals plainLz4 oneDecode (archiveOf oneFile) oneAccounts loadedBefore w
    plainOrders plainSnapshotOrders Spl.tokenId.bytes plainLz4_lawful one_ok one_consistent plain_before
    (one_respects (fun a c hm => by rw [streamed_before] at hm; exact update_stream hm)) typed_before
    (by simp [loadedBefore, aliceChanges, messageOf, slotMsg]) (by decide) (before_first true) hr (serves_of hw.1) (small_of hw.2) (parse_bytes _)
  exact ⟨w, n, c, s', hr, e1, e2, e3 before Toy.alice _ (one_key streamed_before) (one_order streamed_before) (one_current streamed_before)
    (by intro q bs h; cases h; rfl)⟩

end LAM.Props
