import Verif.Spec.Query
import Verif.Lemmas.Filter
import Verif.Lemmas.Steps
/-!
# Lemmas about `get_program_accounts`
-/
namespace LAM
open Spec

namespace ByCommitment

theorem sizesMatch_iff {X : Codecs} {a : AccountData} (ha : Honest X a) (fs : List AccountFilterType) :
    Selected X (some fs) a → sizesMatch a fs = true := by
  obtain ⟨d, hd, hl⟩ := ha
  intro hs
  rw [sizesMatch, List.all_eq_true]
  intro f hf
  cases f with
  | memcmp m => rfl
  | datasize n =>
    obtain ⟨d', hd', hal⟩ := hs fs rfl _ hf
    rw [hd] at hd'; cases hd'
    simp only [Allows] at hal
    simp [hl, hal]

theorem allM_true {f : α → Run Bool} {l : List α} (h : Run.allM f l = .ok true) :
    ∀ x ∈ l, f x = .ok true := by
  induction l with
  | nil => simp
  | cons y l ih =>
    simp only [Run.allM, Run.bind_eq_ok] at h
    obtain ⟨b, hb, h⟩ := h
    cases b with
    | false => simp at h
    | true =>
      simp at h
      intro x hx
      rcases List.mem_cons.1 hx with rfl | hx
      · exact hb
      · exact ih h x hx

theorem allows_true {X : Codecs} {f : AccountFilterType} {d : Bytes} (h : f.allows X d = .ok true) :
    Allows X f d := by
  by_cases hw : WellFormed X f
  · obtain ⟨b, hb, hiff⟩ := allows_ok X f d hw
    rw [h] at hb; cases hb
    exact hiff.1 rfl
  · cases f with
    | datasize n => simp [WellFormed] at hw
    | memcmp m =>
      simp only [WellFormed, Option.not_isSome_iff_eq_none] at hw
      simp [AccountFilterType.allows, bytesMatch_eq, hw] at h

theorem filterState_sound {X : Codecs} {a b : AccountData} {fs : List AccountFilterType}
    (h : filterState X a fs = .ok (some b)) : SameAccount X a b ∧ Selected X (some fs) a := by
  unfold filterState at h
  split at h
  · cases h
  split at h
  · rename_i he
    simp only [Run.ok.injEq, Option.some.injEq] at h
    subst h
    refine ⟨SameAccount.refl X a, ?_⟩
    intro l hl
    simp only [Option.some.injEq] at hl; subst hl
    simp only [List.isEmpty_iff] at he; subst he
    simp
  split at h
  · rename_i d hd
    simp only [Run.bind_eq_ok] at h
    obtain ⟨r, hr, h⟩ := h
    cases r with
    | false => simp at h
    | true =>
      simp at h; subst h
      refine ⟨SameAccount.refl X a, ?_⟩
      intro l hl f hf
      simp only [Option.some.injEq] at hl; subst hl
      exact ⟨d, by rw [hd]; rfl, allows_true (allM_true hr f hf)⟩
  · simp only [Run.bind_eq_ok] at h
    obtain ⟨d, hd, r, hr, h⟩ := h
    rw [data_eq] at hd
    have hd' : contents X a.account.data = some d := by
      cases hc : contents X a.account.data with
      | none => rw [hc] at hd; cases hd
      | some x => rw [hc] at hd; simp at hd; rw [hd]
    cases r with
    | false => simp at h
    | true =>
      simp at h; subst h
      refine ⟨⟨rfl, rfl, rfl, rfl, rfl, rfl, rfl, ?_⟩, ?_⟩
      · rw [hd']; rfl
      · intro l hl f hf
        simp only [Option.some.injEq] at hl; subst hl
        exact ⟨d, hd', allows_true (allM_true hr f hf)⟩

theorem filterState_complete {X : Codecs} {a : AccountData} (ha : Honest X a)
    {fs : List AccountFilterType} (hw : ∀ f ∈ fs, WellFormed X f) :
    ∃ r, filterState X a fs = .ok r ∧ (Selected X (some fs) a → ∃ b, r = some b) := by
  have hsz := sizesMatch_iff ha fs
  obtain ⟨d, hd, hl⟩ := ha
  have hall : ∃ b, Run.allM (fun f => f.allows X d) fs = .ok b ∧
      (b = true ↔ ∀ f ∈ fs, Allows X f d) := by
    refine ⟨fs.all (fun f => allowsB X f d), ?_, ?_⟩
    · exact Run.allM_ok _ _ _ (fun f hf => allows_eq X f d (hw f hf))
    · rw [List.all_eq_true]
      exact ⟨fun h f hf => (allowsB_iff X f d).1 (h f hf), fun h f hf => (allowsB_iff X f d).2 (h f hf)⟩
  obtain ⟨b, hb, hiff⟩ := hall
  have hsel : Selected X (some fs) a → b = true := by
    intro hs
    rw [hiff]
    intro f hf
    obtain ⟨d', hd', hal⟩ := hs fs rfl f hf
    rw [hd] at hd'; cases hd'; exact hal
  unfold filterState
  split
  · rename_i hn
    exact ⟨none, rfl, fun hs => by rw [hsz hs] at hn; simp at hn⟩
  split
  · exact ⟨some a, rfl, fun _ => ⟨a, rfl⟩⟩
  split
  · rename_i d' hd'
    have : d' = d := by rw [hd'] at hd; simp [contents] at hd; exact hd
    subst this
    refine ⟨if b then some a else none, ?_, fun hs => ⟨a, by simp [hsel hs]⟩⟩
    simp only [hb, Run.ok_bind]
    cases b <;> rfl
  · refine ⟨if b then some (withUncompressed a d) else none, ?_, fun hs => ⟨withUncompressed a d, by simp [hsel hs]⟩⟩
    rw [data_eq, hd]
    simp only [Run.unwrap_some, Run.ok_bind, hb]
    cases b <;> rfl

end ByCommitment

namespace Store

/-- What an account contributes comes from its state at the commitment. -/
theorem gpaOne_sound {X : Codecs} {e : ByCommitment} {c : Commitment} {p : Pubkey}
    {fs : Option (List AccountFilterType)} {x : List AccountData} (h : gpaOne X e c p fs = .ok x)
    {b : AccountData} (hb : b ∈ x) :
    x = [b] ∧ ∃ a, e.get c = some a ∧ SameAccount X a b ∧ Selected X fs a ∧ a.account.owner = p ∧
      (fs ≠ none → 0 < a.account.lamports) := by
  unfold gpaOne at h
  cases fs with
  | none =>
    simp only at h
    cases hg : e.get c with
    | none => rw [hg] at h; simp at h; subst h; simp at hb
    | some a =>
      rw [hg] at h
      simp only at h
      split at h
      · rename_i ho
        simp at h; subst h
        simp at hb; subst hb
        exact ⟨rfl, b, rfl, SameAccount.refl X b, (fun l hl => by cases hl), ho.symm, by simp⟩
      · simp at h; subst h; simp at hb
  | some l =>
    simp only [Run.bind_eq_ok] at h
    obtain ⟨r, hr, h⟩ := h
    cases r with
    | none => simp at h; subst h; simp at hb
    | some b' =>
      simp only at h
      split at h
      · rename_i hc
        simp at h; subst h
        simp at hb; subst hb
        unfold ByCommitment.getFiltered at hr
        cases hg : e.get c with
        | none => rw [hg] at hr; cases hr
        | some a =>
          rw [hg] at hr
          obtain ⟨hsame, hsel⟩ := ByCommitment.filterState_sound hr
          refine ⟨rfl, a, rfl, hsame, hsel, ?_, fun _ => ?_⟩
          · rw [← hsame.owner]; exact hc.2
          · rw [← hsame.lamports]; exact hc.1
      · simp at h; subst h; simp at hb

theorem gpaOne_complete {X : Codecs} {e : ByCommitment} {c : Commitment} (p : Pubkey)
    {fs : Option (List AccountFilterType)} (hw : QueryWellFormed X fs)
    (ha : ∀ a, e.get c = some a → Honest X a) :
    ∃ x, gpaOne X e c p fs = .ok x ∧ ∀ a, e.get c = some a → a.account.owner = p →
      0 < a.account.lamports → Selected X fs a → ∃ b ∈ x, SameAccount X a b := by
  unfold gpaOne
  cases fs with
  | none =>
    simp only
    cases hg : e.get c with
    | none => exact ⟨[], rfl, by simp⟩
    | some a =>
      by_cases ho : p = a.account.owner
      · refine ⟨[a], by simp [ho], ?_⟩
        intro b hb _ _ _
        simp at hb; subst hb
        exact ⟨a, by simp, SameAccount.refl X a⟩
      · refine ⟨[], by simp [ho], ?_⟩
        intro b hb hbo
        simp at hb; subst hb
        exact absurd hbo.symm ho
  | some l =>
    simp only [ByCommitment.getFiltered]
    cases hg : e.get c with
    | none => exact ⟨[], rfl, by simp⟩
    | some a =>
      obtain ⟨r, hr, hsel⟩ := ByCommitment.filterState_complete (ha a hg) (hw l rfl)
      simp only [hr, Run.ok_bind]
      cases r with
      | none =>
        refine ⟨[], rfl, ?_⟩
        intro b hb _ _ hs
        simp at hb; subst hb
        obtain ⟨b, hb⟩ := hsel hs; cases hb
      | some b =>
        obtain ⟨hsame, -⟩ := ByCommitment.filterState_sound hr
        by_cases hc : 0 < b.account.lamports ∧ b.account.owner = p
        · refine ⟨[b], by simp [hc], ?_⟩
          intro x hx _ _ _
          simp at hx; subst hx
          exact ⟨b, by simp, hsame⟩
        · refine ⟨[], by simp [hc], ?_⟩
          intro x hx ho hl _
          simp at hx; subst hx
          exact absurd ⟨by rw [hsame.lamports]; exact hl, by rw [hsame.owner]; exact ho⟩ hc

theorem gpaPass_cons_ok {X : Codecs} {s : Store} {c : Commitment} {p : Pubkey}
    {fs : Option (List AccountFilterType)} {i : Nat} {l : List Nat} {r : List AccountData} :
    gpaPass X s c p fs (i :: l) = .ok r ↔ ∃ e x rs, s.accounts[i]? = some e ∧
      gpaOne X e c p fs = .ok x ∧ gpaPass X s c p fs l = .ok rs ∧ r = x ++ rs := by
  simp only [gpaPass, Run.bind_eq_ok, Run.pure_eq, Run.ok.injEq]
  constructor
  · rintro ⟨e, he, x, hx, rs, hrs, rfl⟩
    cases hg : s.accounts[i]? with
    | none => rw [hg] at he; cases he
    | some e' => rw [hg] at he; simp at he; subst he; exact ⟨e', x, rs, rfl, hx, hrs, rfl⟩
  · rintro ⟨e, x, rs, he, hx, hrs, rfl⟩
    exact ⟨e, by rw [he]; rfl, x, hx, rs, hrs, rfl⟩

theorem gpaPass_append {X : Codecs} {s : Store} {c : Commitment} {p : Pubkey}
    {fs : Option (List AccountFilterType)} {l m : List Nat} :
    gpaPass X s c p fs (l ++ m) = (do
      let r1 ← gpaPass X s c p fs l
      let r2 ← gpaPass X s c p fs m
      return r1 ++ r2) := by
  induction l with
  | nil => simp [gpaPass]; cases gpaPass X s c p fs m <;> rfl
  | cons i l ih =>
    simp only [List.cons_append, gpaPass]
    cases Run.unwrap s.accounts[i]? with
    | ok e =>
      simp only [Run.ok_bind]
      cases gpaOne X e c p fs with
      | ok x =>
        simp only [Run.ok_bind, ih]
        cases gpaPass X s c p fs l with
        | ok y =>
          simp only [Run.ok_bind]
          cases gpaPass X s c p fs m <;> simp
        | panic => rfl
        | diverge => rfl
      | panic => rfl
      | diverge => rfl
    | panic => rfl
    | diverge => rfl

theorem gpaPass_perm {X : Codecs} {s : Store} {c : Commitment} {p : Pubkey}
    {fs : Option (List AccountFilterType)} {l m : List Nat} (h : l.Perm m) :
    ∀ {r}, gpaPass X s c p fs l = .ok r → ∃ r', gpaPass X s c p fs m = .ok r' ∧ r.Perm r' := by
  induction h with
  | nil => intro r hr; exact ⟨r, hr, .refl _⟩
  | cons i _ ih =>
    intro r hr
    obtain ⟨e, x, rs, he, hx, hrs, rfl⟩ := gpaPass_cons_ok.1 hr
    obtain ⟨r', hr', hp⟩ := ih hrs
    exact ⟨x ++ r', gpaPass_cons_ok.2 ⟨e, x, r', he, hx, hr', rfl⟩, hp.append_left x⟩
  | swap i j l =>
    intro r hr
    obtain ⟨e, x, rs, he, hx, hrs, rfl⟩ := gpaPass_cons_ok.1 hr
    obtain ⟨e', x', rs', he', hx', hrs', rfl⟩ := gpaPass_cons_ok.1 hrs
    refine ⟨x' ++ (x ++ rs'), gpaPass_cons_ok.2 ⟨e', x', _, he', hx', gpaPass_cons_ok.2 ⟨e, x, rs', he, hx, hrs', rfl⟩, rfl⟩, ?_⟩
    rw [← List.append_assoc, ← List.append_assoc]
    exact (List.perm_append_comm).append_right _
  | trans _ _ ih1 ih2 =>
    intro r hr
    obtain ⟨r1, h1, p1⟩ := ih1 hr
    obtain ⟨r2, h2, p2⟩ := ih2 h1
    exact ⟨r2, h2, p1.trans p2⟩

theorem gpaPass_sound {X : Codecs} {s : Store} {c : Commitment} {p : Pubkey}
    {fs : Option (List AccountFilterType)} {l : List Nat} : ∀ {r}, gpaPass X s c p fs l = .ok r →
    ∀ b ∈ r, ∃ i ∈ l, ∃ e x, s.accounts[i]? = some e ∧ gpaOne X e c p fs = .ok x ∧ b ∈ x := by
  induction l with
  | nil => intro r hr b hb; simp [gpaPass] at hr; subst hr; simp at hb
  | cons i l ih =>
    intro r hr b hb
    obtain ⟨e, x, rs, he, hx, hrs, rfl⟩ := gpaPass_cons_ok.1 hr
    rcases List.mem_append.1 hb with hb | hb
    · exact ⟨i, by simp, e, x, he, hx, hb⟩
    · obtain ⟨j, hj, h⟩ := ih hrs b hb
      exact ⟨j, by simp [hj], h⟩

theorem gpaPass_complete {X : Codecs} {s : Store} {c : Commitment} {p : Pubkey}
    {fs : Option (List AccountFilterType)} {l : List Nat}
    (h : ∀ i ∈ l, ∃ e x, s.accounts[i]? = some e ∧ gpaOne X e c p fs = .ok x) :
    ∃ r, gpaPass X s c p fs l = .ok r ∧
      ∀ i ∈ l, ∀ e x, s.accounts[i]? = some e → gpaOne X e c p fs = .ok x → ∀ b ∈ x, b ∈ r := by
  induction l with
  | nil => exact ⟨[], rfl, by simp⟩
  | cons i l ih =>
    obtain ⟨e, x, he, hx⟩ := h i (by simp)
    obtain ⟨rs, hrs, hall⟩ := ih (fun j hj => h j (by simp [hj]))
    refine ⟨x ++ rs, gpaPass_cons_ok.2 ⟨e, x, rs, he, hx, hrs, rfl⟩, ?_⟩
    intro j hj e' x' he' hx' b hb
    rcases List.mem_cons.1 hj with rfl | hj
    · rw [he] at he'; cases he'
      rw [hx] at hx'; cases hx'
      exact List.mem_append_left _ hb
    · exact List.mem_append_right _ (hall j hj e' x' he' hx' b hb)

/-- A listed index with something to contribute belongs to a tracked pubkey. -/
theorem index_of_get {s : Store} (h : Inv s) {i : Nat} {e : ByCommitment} {c : Commitment} {a : AccountData}
    (he : s.accounts[i]? = some e) (hg : e.get c = some a) :
    s.index a.pubkey = some i ∧ s.view a.pubkey = some e := by
  rcases h.own i e he with ⟨pk, hpk⟩ | hd
  · obtain ⟨e', he', ho⟩ := h.idx _ _ hpk
    rw [he] at he'; cases he'
    have := ho.get_pubkey hg
    subst this
    exact ⟨hpk, by rw [view_of_index hpk, he]⟩
  · subst hd; cases c <;> simp [dead, ByCommitment.get, BMap.lastVal] at hg

theorem gpaPass_nodup {X : Codecs} {s : Store} (h : Inv s) {c : Commitment} {p : Pubkey}
    {fs : Option (List AccountFilterType)} {l : List Nat} (hl : l.Nodup) :
    ∀ {r}, gpaPass X s c p fs l = .ok r → (r.map AccountData.pubkey).Nodup := by
  induction l with
  | nil => intro r hr; simp [gpaPass] at hr; subst hr; simp
  | cons i l ih =>
    intro r hr
    simp only [List.nodup_cons] at hl
    obtain ⟨e, x, rs, he, hx, hrs, rfl⟩ := gpaPass_cons_ok.1 hr
    rw [List.map_append, List.nodup_append]
    refine ⟨?_, ih hl.2 hrs, ?_⟩
    · cases x with
      | nil => simp
      | cons b t =>
        have := (gpaOne_sound hx (b := b) (by simp)).1
        simp at this; subst this; simp
    · intro pk1 h1 pk2 h2 heq
      simp only [List.mem_map] at h1 h2
      obtain ⟨b1, hb1, rfl⟩ := h1
      obtain ⟨b2, hb2, rfl⟩ := h2
      obtain ⟨-, a1, hg1, hs1, -⟩ := gpaOne_sound hx hb1
      obtain ⟨j, hj, e2, x2, he2, hx2, hbx⟩ := gpaPass_sound hrs b2 hb2
      obtain ⟨-, a2, hg2, hs2, -⟩ := gpaOne_sound hx2 hbx
      have i1 := (index_of_get h he hg1).1
      have i2 := (index_of_get h he2 hg2).1
      rw [← hs1.pubkey, heq, hs2.pubkey, i2] at i1
      simp at i1
      rw [i1] at hj
      exact hl.1 hj

theorem filter_split_perm (b : Nat → Bool) (l : List Nat) :
    (l.filter (fun i => !b i) ++ l.filter (fun i => b i)).Perm l := by
  induction l with
  | nil => simp
  | cons x l ih =>
    cases hb : b x with
    | false => simp [hb]; exact ih
    | true =>
      simp [hb]
      exact (List.perm_middle).trans (ih.cons x)

/-- The two passes together visit the listed indexes in some order. -/
theorem getProgramAccounts_eq {X : Codecs} {F : Filters} {busy : Nat → Bool} {s : Store} {p : Pubkey}
    {fs : Option (List AccountFilterType)} {c : Commitment} :
    getProgramAccounts X F busy s p fs c =
      if F.contains ⟨[], some p, fs⟩ = true then (do
        let l := (s.byOwner p).getD []
        let r ← gpaPass X s c p fs (l.filter (fun i => !busy i) ++ l.filter (fun i => busy i))
        return .ok r)
      else .ok (.error .configDoesNotContainRequiredFilters) := by
  unfold getProgramAccounts
  cases hc : F.contains ⟨[], some p, fs⟩ with
  | false => simp
  | true =>
    simp only [Bool.not_true, Bool.false_eq_true, if_false, if_true]
    cases s.byOwner p with
    | none => simp [gpaPass]
    | some l =>
      simp only [Option.getD_some, gpaPass_append]
      cases gpaPass X s c p fs (l.filter (fun i => !busy i)) with
      | ok x =>
        simp only [Run.ok_bind]
        cases gpaPass X s c p fs (l.filter (fun i => busy i)) <;> rfl
      | panic => rfl
      | diverge => rfl

theorem nodup_of_sorted {l : List Nat} (h : SSorted natLt l) : l.Nodup := by
  unfold SSorted at h
  unfold List.Nodup
  refine h.imp ?_
  intro a b hab heq
  subst heq
  simp [natLt] at hab

theorem byOwner_nodup {s : Store} (h : Inv s) (p : Pubkey) : ((s.byOwner p).getD []).Nodup := by
  cases hb : s.byOwner p with
  | none => simp
  | some l => exact nodup_of_sorted (h.owners p l hb).1

theorem byOwner_lt {s : Store} (h : Inv s) (p : Pubkey) : ∀ i ∈ (s.byOwner p).getD [], i < s.accounts.length := by
  cases hb : s.byOwner p with
  | none => simp
  | some l => exact (h.owners p l hb).2

/-! ## Accounts with a stable owner are listed -/

/-- If all submissions for a pubkey have the same owner, it is listed under that owner while tracked. -/
theorem stable_owner_listed (pk o : Pubkey) : ∀ h s, empty.run h = .ok s →
    (∀ F a c, Op.update F a c ∈ h → a.pubkey = pk → a.account.owner = o) →
    ∀ e, s.view pk = some e → (∀ d a, e.get d = some a → a.account.owner = o) ∧
      (∀ k a, BMap.find e.processed k = some a → a.account.owner = o) ∧
      ∀ i, s.index pk = some i → owns s o i := by
  apply history_induction
  · intro _ e he; simp [Store.view, empty] at he
  · intro h s op s' _ hi ih hs hown e' he'
    have ih := ih (fun F a c hm => hown F a c (by simp [hm]))
    cases op with
    | update F a c =>
      obtain ⟨s2, b, hu, hc⟩ := updateAccount_case hi F a c
      simp only [step, hu, Run.ok_bind, Run.pure_eq, Run.ok.injEq] at hs
      subst hs
      have hi' := inv_updateCase hi hc
      by_cases hpk : pk = a.pubkey
      · have hao := hown F a c (by simp) hpk.symm
        have hupd : ∀ e : ByCommitment, (∀ d a, e.get d = some a → a.account.owner = o) →
            (∀ k a, BMap.find e.processed k = some a → a.account.owner = o) → ByCommitment.EntryOK pk e →
            ∀ c', (∀ d b, (e.update a c').1.get d = some b → b.account.owner = o) ∧
             (∀ k b, BMap.find (e.update a c').1.processed k = some b → b.account.owner = o) := by
          intro e h1 h2 ho c'
          have ho' : ByCommitment.EntryOK pk (e.update a c').1 := by rw [hpk] at ho ⊢; exact ByCommitment.entryOK_update ho c'
          have hp : ∀ k b, BMap.find (e.update a c').1.processed k = some b → b.account.owner = o := by
            intro k b hb
            rw [ByCommitment.update_processed, ByCommitment.find_updateProcessed] at hb
            split at hb
            · split at hb
              · rename_i q hq
                split at hb
                · simp at hb; subst hb; exact hao
                · simp at hb; subst hb; exact h2 _ _ hq
              · simp at hb; subst hb; exact hao
            · exact h2 _ _ hb
          refine ⟨?_, hp⟩
          intro d b hb
          cases d with
          | processed =>
            rw [ho'.get_processed] at hb
            obtain ⟨k, hk, -⟩ := BMap.lastVal_eq_some ho'.sorted hb
            exact hp k b hk
          | confirmed =>
            simp only [ByCommitment.get, ByCommitment.update_confirmed] at hb
            split at hb
            · exact h1 .confirmed b hb
            · split at hb
              · simp at hb; subst hb; exact hao
              · exact h1 .confirmed b hb
          | finalized =>
            simp only [ByCommitment.get, ByCommitment.update_finalized] at hb
            split at hb
            · simp at hb; subst hb; exact hao
            · exact h1 .finalized b hb
        cases hc with
        | rejected => exact ih e' he'
        | created hni hf =>
          rw [view_created hi, if_pos hpk] at he'
          simp at he'; subst he'
          refine ⟨?_, ?_, ?_⟩
          · intro d x hx
            rw [ByCommitment.get_new] at hx
            split at hx
            · simp at hx; subst hx; exact hao
            · simp at hx
          · intro k x hx
            simp [ByCommitment.new, BMap.find] at hx
            rw [← hx.2]; exact hao
          · intro i hix
            simp [createdStore, hpk] at hix
            subst hix
            have := (owns_addAccountOwner s s.accounts.length a.account.owner o s.accounts.length).2 (Or.inr ⟨rfl, hao.symm⟩)
            exact this
        | kept i e hix he hr =>
          have hve : s.view pk = some e := by rw [hpk, view_of_index hix, he]
          obtain ⟨h1, h2, h3⟩ := ih e hve
          have hve' := (view_updateCase hi (UpdateCase.kept i e hix he hr) pk).2 hpk
          have hee : e' = (e.update a (s.effective a.slot c)).1 := by
            rcases hve' with ⟨h, -⟩ | ⟨h, -⟩ | ⟨e1, h, -, h4, -⟩ | ⟨e1, -, -, h4, -⟩
            · rw [hve] at h; cases h
            · rw [hve] at h; cases h
            · rw [hve] at h; cases h; rw [he'] at h4; simpa using h4
            · rw [he'] at h4; cases h4
          obtain ⟨g1, g2⟩ := hupd e h1 h2 (hi.view hve) (s.effective a.slot c)
          refine ⟨hee ▸ g1, hee ▸ g2, ?_⟩
          intro j hj
          have hj' : j = i := by
            rw [hpk] at hj; simp at hj; rw [hix] at hj; simpa using hj.symm
          subst hj'
          have hold := h3 j (by rw [hpk]; exact hix)
          have hbase : owns ((s.addIndexToSlot a.slot j c).1.setAt j (e.update a (s.effective a.slot c)).1) o j := by
            simpa [owns] using hold
          unfold ownerAfter
          split
          · rename_i p _ hp
            rw [owns_ownerStep, if_pos rfl]
            unfold ListedAfter
            rw [if_pos (by rw [h1 _ p hp, hao])]
            exact hbase
          · exact hbase
        | removed i e hix he hr =>
          have : (((ownerAfter F (s.addIndexToSlot a.slot i c).1 (e.get (s.effective a.slot c)) a i (s.effective a.slot c) true).setAt i dead).dropKey a.pubkey).view pk = none := by
            simp [Store.view, dropKey, hpk]
          rw [this] at he'; cases he'
      · have hve : s.view pk = some e' := by
          rw [← (view_updateCase hi hc pk).1 hpk]; exact he'
        obtain ⟨h1, h2, h3⟩ := ih e' hve
        refine ⟨h1, h2, ?_⟩
        intro i hix
        cases hc with
        | rejected => exact h3 i hix
        | created hni hf =>
          simp [createdStore, hpk] at hix
          exact (owns_addAccountOwner s s.accounts.length a.account.owner o i).2 (Or.inl (h3 i hix))
        | kept j e hjx he hr =>
          have hix' : s.index pk = some i := by simpa using hix
          have hne : i ≠ j := by rintro rfl; exact hpk (hi.inj hix' hjx)
          have hold := h3 i hix'
          have hbase : owns ((s.addIndexToSlot a.slot j c).1.setAt j (e.update a (s.effective a.slot c)).1) o i := by
            simpa [owns] using hold
          unfold ownerAfter
          split
          · rw [owns_ownerStep, if_neg hne]; exact hbase
          · exact hbase
        | removed j e hjx he hr =>
          have hix' : s.index pk = some i := by simpa [dropKey, hpk] using hix
          have hne : i ≠ j := by rintro rfl; exact hpk (hi.inj hix' hjx)
          have hold := h3 i hix'
          have hbase : owns (s.addIndexToSlot a.slot j c).1 o i := by
            simpa [owns] using hold
          have : owns (ownerAfter F (s.addIndexToSlot a.slot j c).1 (e.get (s.effective a.slot c)) a j (s.effective a.slot c) true) o i := by
            unfold ownerAfter
            split
            · rw [owns_ownerStep, if_neg hne]; exact hbase
            · exact hbase
          simpa [owns] using this
    | slot F σ info c =>
      obtain ⟨s2, r, hp, path, m', w, hc⟩ := processSlot_case hi F σ info c
      simp only [step, hp, Run.ok_bind, Run.pure_eq, Run.ok.injEq] at hs
      subst hs
      rcases hc.view hi pk with ⟨-, -, -, h0⟩ | ⟨i, e, hix, hve, hat, ho, hcs⟩
      · rw [he'] at h0; cases h0
      obtain ⟨h1, h2, h3⟩ := ih e hve
      rcases hcs with ⟨hno, hv, hx⟩ | ⟨k, hk, hv, hx⟩
      · rw [he'] at hv; cases hv
        refine ⟨h1, h2, ?_⟩
        intro j hj
        rw [hx] at hj; cases hj
        rw [hc.owns_same o i (fun x hxw hxi => hno x.2 (by rw [← hxi]; exact hxw))]
        exact h3 i hix
      · have hpe := after_eq (by rw [← hv]; exact he')
        have ho' := ByCommitment.entryOK_promote ho k c
        have hproc : ∀ j b, BMap.find e'.processed j = some b → b.account.owner = o := by
          intro j b hb
          rw [hpe, ByCommitment.promote_processed_map] at hb
          split at hb
          · exact h2 _ _ (ByCommitment.find_prune_some ho.sorted hb)
          · exact h2 _ _ hb
        refine ⟨?_, hproc, ?_⟩
        · intro d b hb
          cases d with
          | processed =>
            rw [hpe, ho'.get_processed] at hb
            obtain ⟨j, hj, -⟩ := BMap.lastVal_eq_some ho'.sorted hb
            exact hproc j b (by rw [hpe]; exact hj)
          | confirmed =>
            rw [hpe] at hb
            simp only [ByCommitment.get, ByCommitment.promote_confirmed] at hb
            cases hf : BMap.find e.processed k with
            | none => rw [hf] at hb; exact h1 .confirmed b hb
            | some x =>
              have hxo := h2 _ _ hf
              rw [hf] at hb
              simp only at hb
              split at hb
              · exact h1 .confirmed b hb
              · split at hb
                · rename_i y hy
                  split at hb
                  · simp at hb; subst hb; exact hxo
                  · simp at hb; subst hb; exact h1 .confirmed _ hy
                · simp at hb; subst hb; exact hxo
          | finalized =>
            rw [hpe] at hb
            simp only [ByCommitment.get, ByCommitment.promote_finalized] at hb
            cases hf : BMap.find e.processed k with
            | none => rw [hf] at hb; exact h1 .finalized b hb
            | some x =>
              have hxo := h2 _ _ hf
              rw [hf] at hb
              simp only at hb
              split at hb
              · split at hb
                · rename_i y hy
                  split at hb
                  · simp at hb; subst hb; exact hxo
                  · simp at hb; subst hb; exact h1 .finalized _ hy
                · simp at hb; subst hb; exact hxo
              · exact h1 .finalized b hb
        · intro j hj
          have hji : j = i := by
            rcases hx with hx | ⟨hx, -⟩
            · rw [hx] at hj; simpa using hj.symm
            · rw [hx] at hj; cases hj
          subst hji
          have := hc.owns_prom o (j, k) hk
          simp only [hat] at this
          rw [this]
          unfold ListedProm
          split
          · rename_i a p hpr
            have hres := (ByCommitment.promote_result _ _ _ _ _).1 hpr
            unfold ListedAfter
            rw [if_pos]
            · exact h3 j hix
            · rw [h2 _ _ hres.2.1, h1 c p hres.2.2.1.symm]
          · exact h3 j hix

end Store
end LAM
