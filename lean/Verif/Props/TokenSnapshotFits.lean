import Verif.Lemmas.TokenStocked
import Verif.Lemmas.TokenStreamFin
import Verif.Props.TokenSnapshot
/-!
# Token snapshots: C58, what may be assumed and what is absent
-/
namespace LAM.Props
open Spec Token
open TokenStore (TOp)

/-- **C58**. The snapshot of a store that was only given accounts whose lamports are `u64`s fits, unless it is longer than a `u64`
can count. -/
theorem C58_fits (σ : SnapshotOrders) (X : Codecs) (ops : List TOp) (s : TokenStore) (p : Program) (x : TokenSnapshot)
    (hn : ops.length < 2 ^ 31) (hr : TokenStore.run X ops .empty = .ok s)
    (hu : ∀ o ∈ ops, ∀ a, submittedBy o = some a → a.account.lamports < 2 ^ 64) (hx : s.snapshotOf σ p = .ok x)
    (hl : (encSnapshot x).length < 2 ^ 64) : SnapshotFits x := by
  have hq : ∀ o ∈ ops, ∀ a, o.account = some a → ∀ T y T', classify X T a = .ok (some y, T') → NumbersFit y := by
    intro o ho a ha T y T' hcl
    exact classify_numbers (hu o ho a (by rw [← account_eq]; exact ha)) hcl
  obtain ⟨slots, orig, inv⟩ := run_inv ops (inv_empty NumbersFit) (by omega) hq hr
  have hst := run_stocked ops (inv_empty NumbersFit) stocked_empty (by omega) hq hr
  have hcb := inv.cbound
  exact snapshot_fits inv.fin hst (by omega) hx hl

/-- **C58**. If every token account in the snapshot has a stored mint of the same program, then a public key that reads as
absent, and does not share its first four bytes with an account that was closed, reads as absent after loading into
an empty store. -/
theorem C58_absent_partial (σ : SnapshotOrders) (X : Codecs) (ops : List TOp) (s s' : TokenStore) (p : Program)
    (x : TokenSnapshot) (pk : Pubkey) (hn : ops.length < 2 ^ 31) (hr : TokenStore.run X ops .empty = .ok s)
    (hx : s.snapshotOf σ p = .ok x)
    (hk : ∀ b ∈ x.tokens, ∃ t m, TokenAccount.fromBytes b = .ok t ∧ s.mints.find t.mint = some m ∧ m.program = p)
    (hs : TokenStore.empty.loadSnapshot x = .ok s') (hw : NoTwinClosed X pk ops) (ha : s.getAccount pk .finalized = .ok none) :
    s'.getAccount pk .finalized = .ok none := by
  obtain ⟨slots, orig, inv⟩ := stream_inv hn hw hr
  have hb := inv.bound
  have hcb := inv.cbound
  have hx' := hx
  rw [snapshotOf_eq inv.fin] at hx'
  have hk' : ∀ t ∈ chosen p slots, ∃ m, s.mints.find t.mint = some m ∧ m.program = p := by
    intro t ht
    have hmem : t.toBytes ∈ x.tokens := by cases hx'; exact List.mem_map_of_mem ht
    obtain ⟨t', m, h1, h2⟩ := hk _ hmem
    rw [fromBytes_toBytes (inv.fin.holds.fits t (List.mem_filter.1 ht).1)] at h1
    cases h1
    exact ⟨m, h2⟩
  obtain ⟨s2, h1, h2, -, -, h5, -, h7⟩ := loadSnapshot_spec inv.fin (by omega) (by omega) σ p hx hk'
  rw [hs] at h1
  cases h1
  simp only [TokenStore.getAccount, if_true] at ha ⊢
  unfold TokenStore.getFinalized at ha ⊢
  rw [h5]
  cases hm : s.multisigs.find pk with
  | some m =>
    simp only [hm] at ha
    rw [multisigToSolana_ok (inv.fin.multis pk m hm).1] at ha
    simp at ha
  | none =>
    simp only [hm] at ha ⊢
    rw [h2]
    simp only [AMap.find_nil]
    rw [h7 pk]
    · rfl
    · intro t ht hp
      obtain ⟨m, m1, m2⟩ := hk' t ht
      obtain ⟨g1, g2⟩ := List.mem_filter.1 ht
      simp only [Bool.and_eq_true, decide_eq_true_eq, Bool.not_eq_true'] at g2
      obtain ⟨j, hj⟩ := List.getElem?_of_mem g1
      have hst := inv.fin.linked pk (fun q hq he h => h q rfl hq he) j t hj hp g2.2
      cases hi : s.table.index.find pk with
      | some i =>
        simp only [hi] at ha
        cases hmi : s.mints.find i with
        | none => simp [hmi, Run.unwrap] at ha
        | some m => simp [hmi] at ha
      | none =>
        simp only [hi] at ha
        rw [getByPubkey_eq inv.fin.holds, (view_eq_some inv.fin.holds).2 ⟨hp, j, hst⟩] at ha
        simp only [Run.ok_bind, g2.2, Bool.false_eq_true, if_false] at ha
        rw [tokenToSolana_ok g2.2 m1] at ha
        cases ha

/-- The snapshot of `loaded` fits. -/
example : SnapshotFits loadedSnapshot :=
  C58_fits plainSnapshotOrders Toy.codecs _ loaded .tokenProgram _ (by decide) loaded_eq (by
    intro o ho a ha
    simp only [List.mem_cons, List.not_mem_nil, or_false] at ho
    rcases ho with rfl | rfl <;> · cases ha; decide) (loadedSnapshot_eq _)
    (by have : (encSnapshot loadedSnapshot).length ≤ 1000 := by decide +kernel
        omega)

/-- `bob` has no account in `loaded`, nor after loading its snapshot. -/
example : (okStore (TokenStore.empty.loadSnapshot loadedSnapshot)).getAccount Toy.bob .finalized = .ok none :=
  C58_absent_partial plainSnapshotOrders Toy.codecs _ loaded _ .tokenProgram loadedSnapshot Toy.bob (by decide) loaded_eq (loadedSnapshot_eq _)
    (by
      have h : ∀ b ∈ loadedSnapshot.tokens, (match TokenAccount.fromBytes b with | .ok t => decide (t.mint = 0) | _ => false) = true := by
        decide +kernel
      intro b hb
      have := h b hb
      cases ht : TokenAccount.fromBytes b with
      | ok t =>
        rw [ht] at this
        simp only [decide_eq_true_eq] at this
        exact ⟨t, aMint, rfl, by rw [this]; decide +kernel, rfl⟩
      | panic => simp [ht] at this
      | diverge => simp [ht] at this)
    (by decide +kernel) (by
      intro o ho a ha hne hp T T' hcl
      have := (C46_deleted_iff Toy.codecs T T' a _ hcl).1 rfl
      simp only [List.mem_cons, List.not_mem_nil, or_false] at ho
      rcases ho with rfl | rfl <;> · cases ha; revert this; decide) (by decide +kernel)

end LAM.Props
