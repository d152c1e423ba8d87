import Verif.Lemmas.TokenSnapshot
import Verif.Lemmas.TokenStoreRun
import Verif.Spec.TokenStream
/-!
# What the mints and multisigs of a token store are
-/
namespace LAM.Token
open Spec ProcStore
open TokenStore (TOp)

/-- Every stored mint and multisig satisfies `Q`. -/
structure Stocked (Q : ProgramAccount → Prop) (s : TokenStore) : Prop where
  mint : ∀ i m, s.mints.find i = some m → Q (.mint m)
  multisig : ∀ pk m, s.multisigs.find pk = some m → Q (.multisig m pk)

variable {Q : ProgramAccount → Prop} {s s' : TokenStore}

theorem stocked_empty : Stocked Q .empty := ⟨by simp [TokenStore.empty], by simp [TokenStore.empty]⟩

theorem Stocked.congr (h : Stocked Q s) (h1 : s'.mints = s.mints) (h2 : s'.multisigs = s.multisigs) : Stocked Q s' :=
  ⟨by rw [h1]; exact h.mint, by rw [h2]; exact h.multisig⟩

theorem add_stocked {x : ProgramAccount} (hx : Q x) (h : Stocked Q s) (hr : s.addFinalized x = .ok s') : Stocked Q s' := by
  cases x with
  | token t =>
    simp only [TokenStore.addFinalized, Run.bind_eq_ok] at hr
    obtain ⟨⟨⟨i, b⟩, tk⟩, -, hr⟩ := hr
    cases b <;> · simp at hr; subst hr; exact h.congr rfl rfl
  | mint m =>
    have hk : ∀ i T, Stocked Q { s with mints := s.mints.insert i m, table := T } := by
      refine fun i T => ⟨fun j m' hj => ?_, h.multisig⟩
      rw [AMap.find_insert] at hj
      split at hj
      · cases hj; exact hx
      · exact h.mint j m' hj
    simp only [TokenStore.addFinalized] at hr
    split at hr <;> · simp only [Run.ok.injEq] at hr; subst hr; exact (hk _ _).congr rfl rfl
  | multisig m pk =>
    simp only [TokenStore.addFinalized, Run.ok.injEq] at hr
    subst hr
    refine ⟨h.mint, fun q m' hq => ?_⟩
    rw [AMap.find_insert] at hq
    split at hq
    · rename_i e; cases hq; rw [← e]; exact hx
    · exact h.multisig q m' hq
  | deleted pk =>
    simp only [TokenStore.addFinalized] at hr
    split at hr
    · simp only [Run.ok.injEq] at hr
      subst hr
      refine ⟨fun j m' hj => ?_, h.multisig⟩
      rw [AMap.find_erase] at hj
      split at hj
      · cases hj
      · exact h.mint j m' hj
    · simp only [Run.bind_eq_ok] at hr
      obtain ⟨_, -, hr⟩ := hr
      simp at hr; subst hr
      exact h.congr rfl rfl

theorem addAll_stocked (l : List (Processed × Nat)) (hl : ∀ e ∈ l, Q e.1.account) (h : Stocked Q s)
    (hr : TokenStore.addAll l s = .ok s') : Stocked Q s' := by
  induction l generalizing s with
  | nil => simp [TokenStore.addAll] at hr; subst hr; exact h
  | cons e l ih =>
    simp only [TokenStore.addAll, Run.bind_eq_ok] at hr
    obtain ⟨s1, h1, hr⟩ := hr
    exact ih (fun e he => hl e (by simp [he])) (add_stocked (hl e (by simp)) h h1) hr

theorem update_stocked {X : Codecs} {a : AccountData} {c : Commitment} {b : Bool} (h : Stocked Q s)
    (hq : ∀ x T', classify X s.table a = .ok (some x, T') → Q x) (hr : s.updateAccount X a c = .ok (b, s')) : Stocked Q s' := by
  unfold TokenStore.updateAccount at hr
  simp only [Run.bind_eq_ok] at hr
  obtain ⟨isT, -, hr⟩ := hr
  split at hr
  · simp at hr; obtain ⟨-, rfl⟩ := hr; exact h
  · simp only [Run.bind_eq_ok] at hr
    obtain ⟨⟨r, T⟩, hcl, hr⟩ := hr
    cases r with
    | none => simp at hr; obtain ⟨-, rfl⟩ := hr; exact h.congr rfl rfl
    | some x =>
      simp only at hr
      split at hr
      · simp at hr; obtain ⟨-, rfl⟩ := hr; exact h.congr rfl rfl
      · simp only [Run.bind_eq_ok] at hr
        obtain ⟨s1, hs1, hr⟩ := hr
        simp at hr; obtain ⟨-, rfl⟩ := hr
        exact add_stocked (s := { s with table := T }) (hq x T hcl) (h.congr rfl rfl) hs1

theorem slot_stocked {n : Nat} {slots orig : List TokenAccount} {σ : Orders} {info : SlotInfo} {c : Commitment}
    {notes : List AccountData} (hi : Inv Q n s slots orig) (h : Stocked Q s)
    (hr : s.processSlot σ info c = .ok (notes, s')) : Stocked Q s' := by
  cases c with
  | processed =>
    simp only [TokenStore.processSlot, Run.ok.injEq, Prod.mk.injEq] at hr
    obtain ⟨-, rfl⟩ := hr
    exact h.congr rfl rfl
  | confirmed =>
    simp only [TokenStore.processSlot, Run.bind_eq_ok] at hr
    obtain ⟨⟨l, P⟩, -, hr⟩ := hr
    simp only [Run.pure_eq, Run.ok.injEq, Prod.mk.injEq] at hr
    obtain ⟨-, rfl⟩ := hr
    split <;> exact h.congr rfl rfl
  | finalized =>
    unfold TokenStore.processSlot at hr
    simp only [Run.bind_eq_ok] at hr
    generalize hs0 : (if s.finalizedSlot < info.slot then
          { s with finalizedSlot := info.slot, processed := s.processed.updateSlotInfo info } else s) = s0 at hr
    have h0 : Stocked Q s0 ∧ ProcOk (Waiting Q s.table.counter) s0.processed := by
      rw [← hs0]; split
      · exact ⟨h.congr rfl rfl, (hi.proc.updateSlotInfo info).1⟩
      · exact ⟨h, hi.proc⟩
    obtain ⟨⟨P', l⟩, hfz, notes', -, s1, hadd, hr⟩ := hr
    simp only [Run.pure_eq, Run.ok.injEq, Prod.mk.injEq] at hr
    obtain ⟨-, rfl⟩ := hr
    obtain ⟨P1, l1, z1, z2, z3, z4, -⟩ := finalize_spec h0.2 info.slot
    rw [z1] at hfz; cases hfz
    refine addAll_stocked (s := { s0 with processed := P' }) (σ.final l) ?_ (h0.1.congr rfl rfl) hadd
    rintro ⟨x, k⟩ he
    exact (newest_good h0.2 ((z4 x k).1 ((σ.final_perm l).mem_iff.1 he))).2.2.1

theorem run_stocked {X : Codecs} (ops : List TOp) {n : Nat} {slots orig : List TokenAccount} (hi : Inv Q n s slots orig)
    (h : Stocked Q s) (hn : n + ops.length < 2 ^ 31)
    (hq : ∀ o ∈ ops, ∀ a, o.account = some a → ∀ T x T', classify X T a = .ok (some x, T') → Q x)
    (hr : TokenStore.run X ops s = .ok s') : Stocked Q s' := by
  induction ops generalizing s slots orig n with
  | nil => simp [TokenStore.run] at hr; subst hr; exact h
  | cons o os ih =>
    simp only [TokenStore.run, Run.bind_eq_ok] at hr
    obtain ⟨s1, h1, hr⟩ := hr
    simp only [List.length_cons] at hn
    have hqo : ∀ a, o.account = some a → ∀ x T', classify X s.table a = .ok (some x, T') → Q x :=
      fun a ha x T' hx => hq o (by simp) a ha _ x T' hx
    obtain ⟨slots1, orig1, i1⟩ := step_inv hi (by omega) hqo h1
    refine ih i1 ?_ (by omega) (fun o ho => hq o (by simp [ho])) hr
    cases o with
    | update a c =>
      simp only [TokenStore.step, Run.bind_eq_ok] at h1
      obtain ⟨⟨b, s2⟩, h2, h1⟩ := h1
      simp at h1; subst h1
      exact update_stocked h (hqo a rfl) h2
    | init a =>
      simp only [TokenStore.step, init_eq_update, Run.bind_eq_ok] at h1
      obtain ⟨⟨b, s2⟩, h2, h1⟩ := h1
      simp at h1; subst h1
      exact update_stocked h (hqo a rfl) h2
    | slot σ info c =>
      simp only [TokenStore.step, Run.bind_eq_ok] at h1
      obtain ⟨⟨b, s2⟩, h2, h1⟩ := h1
      simp at h1; subst h1
      exact slot_stocked hi h h2

/-- The numbers of a mint or multisig are `u64`s. -/
def NumbersFit : ProgramAccount → Prop
  | .mint m => U64 m.lamports ∧ U64 m.supply
  | .multisig m _ => U64 m.lamports
  | _ => True

theorem classify_numbers {X : Codecs} {T T' : MintTable} {a : AccountData} {x : ProgramAccount} (ha : U64 a.account.lamports)
    (h : classify X T a = .ok (some x, T')) : NumbersFit x := by
  have hm : ∀ bs m p e, Spl.unpackMint bs = some m → NumbersFit (.mint (mintOf a p m e)) := by
    intro bs m p e hm
    refine ⟨ha, ?_⟩
    have := ((Spl.unpackMint_iff _ _).1 hm).supply
    show m.supply < 2 ^ 64
    rw [← this]
    have h2 := leNat_lt (field bs 36 8)
    have h3 : (field bs 36 8).length ≤ 8 := by simp [field]; omega
    calc leNat (field bs 36 8) < 256 ^ (field bs 36 8).length := h2
      _ ≤ 256 ^ 8 := Nat.pow_le_pow_right (by decide) h3
      _ = 2 ^ 64 := by decide
  unfold classify at h
  split at h
  · simp only [Run.ok.injEq, Prod.mk.injEq, Option.some.injEq] at h
    obtain ⟨rfl, -⟩ := h
    trivial
  · split at h
    · simp only [Run.bind_eq_ok] at h
      obtain ⟨bs, -, k, -, h⟩ := h
      split at h
      · cases h
      · split at h
        · cases h
        · rename_i hu
          simp only [Run.bind_eq_ok] at h
          obtain ⟨e, -, h⟩ := h
          simp only [Run.pure_eq, Run.ok.injEq, Prod.mk.injEq, Option.some.injEq] at h
          obtain ⟨rfl, -⟩ := h
          exact hm _ _ _ _ hu
      · split at h
        · cases h
        · simp only [Run.bind_eq_ok] at h
          obtain ⟨e, -, h⟩ := h
          simp only [Run.pure_eq, Run.ok.injEq, Prod.mk.injEq, Option.some.injEq] at h
          obtain ⟨rfl, -⟩ := h
          trivial
      · split at h
        · cases h
        · simp only [Run.pure_eq, Run.ok.injEq, Prod.mk.injEq, Option.some.injEq] at h
          obtain ⟨rfl, -⟩ := h
          exact ha
    · simp only [Run.bind_eq_ok] at h
      obtain ⟨bs, -, h⟩ := h
      split at h
      · split at h
        · cases h
        · rename_i hu
          simp only [Run.pure_eq, Run.ok.injEq, Prod.mk.injEq, Option.some.injEq] at h
          obtain ⟨rfl, -⟩ := h
          exact hm _ _ _ _ hu
      · split at h
        · split at h
          · cases h
          · simp only [Run.pure_eq, Run.ok.injEq, Prod.mk.injEq, Option.some.injEq] at h
            obtain ⟨rfl, -⟩ := h
            trivial
        · split at h
          · cases h
          · simp only [Run.pure_eq, Run.ok.injEq, Prod.mk.injEq, Option.some.injEq] at h
            obtain ⟨rfl, -⟩ := h
            exact ha

/-! ### Lengths of encodings -/

theorem flatten_length_mem {α : Type} (enc : α → Bytes) {l : List α} {a : α} (h : a ∈ l) :
    (enc a).length ≤ ((l.map enc).flatten).length := by
  induction l with
  | nil => cases h
  | cons b l ih =>
    simp only [List.map_cons, List.flatten_cons, List.length_append]
    rcases List.mem_cons.1 h with rfl | h
    · omega
    · have := ih h; omega

theorem flatten_length_ge {α : Type} (enc : α → Bytes) (hpos : ∀ a, 1 ≤ (enc a).length) (l : List α) :
    l.length ≤ ((l.map enc).flatten).length := by
  induction l with
  | nil => simp
  | cons b l ih =>
    have := hpos b
    simp only [List.map_cons, List.flatten_cons, List.length_append, List.length_cons]
    omega

theorem encVec_length_mem {α : Type} (enc : α → Bytes) {l : List α} {a : α} (h : a ∈ l) : (enc a).length ≤ (encVec enc l).length := by
  have := flatten_length_mem enc h
  simp only [encVec, List.length_append]; omega

theorem encVec_length_ge {α : Type} (enc : α → Bytes) (hpos : ∀ a, 1 ≤ (enc a).length) (l : List α) :
    l.length ≤ (encVec enc l).length := by
  have := flatten_length_ge enc hpos l
  simp only [encVec, List.length_append]; omega

/-- The snapshot of a reachable store fits, if the numbers of its mints and multisigs do and it is not longer than a `u64` can
count. -/
theorem snapshot_fits {Q : ProgramAccount → Prop} {slots orig : List TokenAccount} (h : Fin Q s slots orig) (hq : Stocked NumbersFit s)
    (hc : s.table.counter < 2 ^ 32) {σ : SnapshotOrders} {p : Program} {x : TokenSnapshot} (hx : s.snapshotOf σ p = .ok x)
    (hl : (encSnapshot x).length < 2 ^ 64) : SnapshotFits x := by
  have hlen : (encVec (fun e : Nat × MintAccount => leBytes 4 e.1 ++ encMint e.2) x.mints).length < 2 ^ 64 ∧
      (encVec encMultiSig x.multisigs).length < 2 ^ 64 ∧ (encVec encByteVec x.tokens).length < 2 ^ 64 := by
    simp only [encSnapshot, List.length_append] at hl
    omega
  obtain ⟨l1, l2, l3⟩ := hlen
  have hx' := hx
  rw [snapshotOf_eq h] at hx'
  refine ⟨?_, ?_, ?_, ?_, ?_, ?_⟩
  · have := encVec_length_ge (fun e : Nat × MintAccount => leBytes 4 e.1 ++ encMint e.2) (by intro a; simp; omega) x.mints
    show _ < _; omega
  · intro e he
    have hl := Nat.lt_of_le_of_lt (encVec_length_mem (fun e : Nat × MintAccount => leBytes 4 e.1 ++ encMint e.2) he) l1
    have hf : s.mints.find e.1 = some e.2 := by
      cases hx'
      have := (List.mem_filter.1 ((σ.mints_perm _).mem_iff.1 he)).1
      exact AMap.find_of_mem h.mints_distinct this
    have hi := h.idx_lt _ _ (h.mints_idx _ _ hf)
    obtain ⟨n1, n2⟩ := hq.mint _ _ hf
    refine ⟨by omega, n1, n2, fun d hd => ?_⟩
    simp only [encMint, hd, encOption, encByteVec, List.length_append, List.length_cons] at hl
    show d.length < _; omega
  · have := encVec_length_ge encMultiSig (by intro a; simp [encMultiSig, encProgram]; cases a.program <;> simp <;> omega) x.multisigs
    show _ < _; omega
  · intro m hm
    have : ∃ pk, s.multisigs.find pk = some m := by
      cases hx'
      obtain ⟨⟨k, m'⟩, h1, h2⟩ := List.mem_map.1 ((σ.multisigs_perm _).mem_iff.1 hm)
      cases h2
      exact ⟨k, AMap.find_of_mem h.multis_distinct h1⟩
    obtain ⟨pk, hpk⟩ := this
    have h11 := (h.multis pk m hpk).1
    exact ⟨hq.multisig pk m hpk, by show _ < _; omega⟩
  · have := encVec_length_ge encByteVec (by intro a; simp [encByteVec]; omega) x.tokens
    show _ < _; omega
  · intro b hb
    have hl := encVec_length_mem encByteVec hb
    simp only [encByteVec, List.length_append] at hl
    show _ < _; omega

end LAM.Token
