import Verif.Lemmas.KnownMint
import Verif.Lemmas.Simulator
import Verif.Props.TokenStream
import Verif.Spec.Program
/-!
# The token store fed by an archive and a stream at once
-/
namespace LAM.Token
open Spec Props ProcStore
open TokenStore (TOp)

/-! ## Interleavings -/

theorem interleaved_snoc_left {α : Type} {a b l : List α} (h : Interleaved a b l) (x : α) : Interleaved (a ++ [x]) b (l ++ [x]) := by
  induction h with
  | nil => exact .left .nil
  | left _ ih => exact .left ih
  | right _ ih => exact .right ih

theorem interleaved_snoc_right {α : Type} {a b l : List α} (h : Interleaved a b l) (x : α) : Interleaved a (b ++ [x]) (l ++ [x]) := by
  induction h with
  | nil => exact .right .nil
  | left _ ih => exact .left ih
  | right _ ih => exact .right ih

theorem interleaved_mem {α : Type} {a b l : List α} (h : Interleaved a b l) (x : α) : x ∈ l ↔ x ∈ a ∨ x ∈ b := by
  induction h with
  | nil => simp
  | left _ ih => simp [ih, or_assoc]
  | right _ ih => simp [ih]; tauto

theorem interleaved_length {α : Type} {a b l : List α} (h : Interleaved a b l) : l.length = a.length + b.length := by
  induction h with
  | nil => rfl
  | left _ ih => simp [ih]; omega
  | right _ ih => simp [ih]; omega

theorem interleaved_filter {α : Type} {p : α → Bool} {a b l : List α} (h : Interleaved a b l) (ha : ∀ x ∈ a, p x = false)
    (hb : ∀ x ∈ b, p x = true) : l.filter p = b ∧ l.filter (fun x => !p x) = a := by
  induction h with
  | nil => exact ⟨rfl, rfl⟩
  | @left x a b l _ ih =>
    obtain ⟨i1, i2⟩ := ih (fun x hx => ha x (by simp [hx])) hb
    have := ha x (by simp)
    simp [this, i1, i2]
  | @right x a b l _ ih =>
    obtain ⟨i1, i2⟩ := ih ha (fun x hx => hb x (by simp [hx]))
    have := hb x (by simp)
    simp [this, i1, i2]

/-- Not a call of the loader. -/
def ofStream : TOp → Bool
  | .init _ => false
  | _ => true

theorem filter_split {ops pre post : List TOp} {o : TOp} (e : ops = pre ++ o :: post) (ho : ofStream o = true) :
    ops.filter ofStream = pre.filter ofStream ++ o :: post.filter ofStream := by simp [e, ho]

theorem lastFinal_filter (ops : List TOp) : lastFinal (ops.filter ofStream) = lastFinal ops := by
  unfold lastFinal
  generalize 0 = n
  induction ops generalizing n with
  | nil => rfl
  | cons o ops ih =>
    cases o with
    | init a => simpa [ofStream] using ih n
    | update a c => rw [List.filter_cons_of_pos rfl]; exact ih _
    | slot σ info c => rw [List.filter_cons_of_pos rfl]; exact ih _

theorem confirmedOf_filter (ops : List TOp) : confirmedOf (ops.filter ofStream) = confirmedOf ops := by
  unfold confirmedOf
  generalize 0 = n
  induction ops generalizing n with
  | nil => rfl
  | cons o ops ih =>
    cases o with
    | init a => simpa [ofStream] using ih n
    | update a c => rw [List.filter_cons_of_pos rfl]; exact ih _
    | slot σ info c => rw [List.filter_cons_of_pos rfl]; exact ih _

theorem submittedAt_filter (ops : List TOp) (pk : Pubkey) (k : Nat) : submittedAt (ops.filter ofStream) pk k = submittedAt ops pk k := by
  unfold submittedAt
  induction ops with
  | nil => rfl
  | cons o ops ih =>
    cases o with
    | init a => simpa [ofStream] using ih
    | update a c => rw [List.filter_cons_of_pos rfl, List.filterMap_cons, List.filterMap_cons, ih]
    | slot σ info c => rw [List.filter_cons_of_pos rfl, List.filterMap_cons, List.filterMap_cons, ih]

theorem parents_filter {par : Nat → Nat} {ops : List TOp} (h : TrueParents par (ops.filter ofStream)) : TrueParents par ops :=
  fun σ info c hm => h σ info c (by simp [hm, ofStream])

theorem onTime_filter {ops : List TOp} (h : OnTime (ops.filter ofStream)) : OnTime ops := by
  intro pre a c post e hc
  rw [← lastFinal_filter]
  exact h _ a c _ (filter_split e rfl) hc

theorem known_filter {X : Codecs} {ops : List TOp} {k : Nat} (h : Known X (ops.filter ofStream) k) : Known X ops k := by
  rcases h with ⟨σ, info, c, h, h'⟩ | ⟨a, c, h, h'⟩
  · exact .inl ⟨σ, info, c, (List.mem_filter.1 h).1, h'⟩
  · exact .inr ⟨a, c, (List.mem_filter.1 h).1, h'⟩

theorem linkNoted_filter {X : Codecs} {ops : List TOp} {k : Nat} (h : LinkNoted X (ops.filter ofStream) k) : LinkNoted X ops k := by
  obtain ⟨pre, σ, info, c, post, e, h1, h2, h3⟩ := h
  obtain ⟨l1, l2, rfl, rfl, e2⟩ := List.filter_eq_append_iff.1 e
  obtain ⟨m1, m2, rfl, hm, -, e3⟩ := List.filter_eq_cons_iff.1 e2
  have hnil : m1.filter ofStream = [] := List.filter_eq_nil_iff.2 hm
  have hpre : (l1 ++ m1).filter ofStream = l1.filter ofStream := by simp [hnil]
  refine ⟨l1 ++ m1, σ, info, c, m2, by simp, h1, known_filter (by rw [hpre]; exact h2), ?_⟩
  rcases h3 with h3 | ⟨h3, h4⟩
  · exact .inl h3
  · exact .inr ⟨h3, by rw [← confirmedOf_filter, hpre]; exact h4⟩

theorem chained_filter {X : Codecs} {par : Nat → Nat} {pk : Pubkey} {ops : List TOp} (h : Chained X par pk (ops.filter ofStream)) :
    Chained X par pk ops := by
  intro pre σ info post e hlt
  rw [← lastFinal_filter] at hlt ⊢
  obtain ⟨c1, c2⟩ := h _ σ info _ (filter_split e rfl) hlt
  refine ⟨c1, fun i k h1 h2 h3 h4 h5 => ?_⟩
  rw [← submittedAt_filter] at h5
  obtain ⟨d1, d2⟩ := c2 i k h1 h2 h3 h4 h5
  exact ⟨fun e => known_filter (d1 e), fun e => linkNoted_filter (d2 e)⟩

theorem newest_filter {par : Nat → Nat} (hd : ∀ i, par i ≤ i) {pk : Pubkey} {ops : List TOp} {s k : Nat} {a : AccountData} :
    NewestTrue (ops.filter ofStream) par pk s a k ↔ NewestTrue ops par pk s a k :=
  ⟨newest_congr hd (fun i _ => (submittedAt_filter ops pk i).symm), newest_congr hd (fun i _ => submittedAt_filter ops pk i)⟩

/-! ## No state of the stream on the finalized chain -/

theorem best_exists {l : List AccountData} (h : l ≠ []) : ∃ a, Best l a := by
  induction l using List.reverseRecOn with
  | nil => exact absurd rfl h
  | append_singleton l b ih =>
    by_cases hl : l = []
    · subst hl; exact ⟨b, [], [], rfl, by simp, by simp⟩
    · obtain ⟨a, ha⟩ := ih hl
      by_cases hb : a.wv < b.wv
      · exact ⟨b, best_snoc_high ha hb⟩
      · exact ⟨a, best_snoc_low ha (by omega)⟩

theorem newest_upward {ops : List TOp} {par : Nat → Nat} {pk : Pubkey} {f F k : Nat} {a : AccountData}
    (hF : Ancestor par f F) (h : NewestTrue ops par pk F a k) : ∃ a k, NewestTrue ops par pk f a k := by
  induction hF with
  | here => exact ⟨a, k, h⟩
  | @up s F hF ih =>
    by_cases hs : submittedAt ops pk s = []
    · obtain ⟨a, k, h⟩ := ih h
      exact ⟨a, k, .up hs h⟩
    · obtain ⟨b, hb⟩ := best_exists hs
      exact ⟨b, s, .here hb⟩

theorem newest_zero {ops : List TOp} {par : Nat → Nat} (hd : ∀ i, par i ≤ i) (ht : OnTime ops) {pk : Pubkey} {k : Nat} {a : AccountData} :
    ¬ NewestTrue ops par pk 0 a k := by
  intro h
  have hk : k ≤ 0 := by
    generalize 0 = f at h
    induction h with
    | here => omega
    | @up s a k _ _ ih => have := hd s; omega
  have : k = 0 := by omega
  subst this
  exact newest_submitted h (submitted_zero ht pk)

/-- While no state of `pk` is on the finalized chain, and none is stored at once, its records stay. -/
theorem stream_unseen {w : Bool} {X : Codecs} {par : Nat → Nat} {s0 s : TokenStore} {pk : Pubkey} (pre post : List TOp)
    (hn : (pre ++ post).length < 2 ^ 31) (hd : ∀ i, par i ≤ i) (hp : TrueParents par (pre ++ post)) (ht : OnTime (pre ++ post))
    (hc : Chained X par pk (pre ++ post)) (hw : w = true → NoTwinClosed X pk (pre ++ post)) (ha : Accepted X pk (pre ++ post))
    (h0 : TokenStore.run X pre .empty = .ok s0) (hr : TokenStore.run X post s0 = .ok s)
    (hnone : ∀ a k, ¬ NewestTrue (pre ++ post) par pk (lastFinal (pre ++ post)) a k)
    (hpost : ∀ o ∈ post, ∀ a, AtOnce o → submittedBy o = some a → a.pubkey ≠ pk) :
    Frame w s0 s pk := by
  induction post using List.reverseRecOn generalizing s with
  | nil => simp [TokenStore.run] at hr; subst hr; exact Frame.rfl
  | append_singleton post o ih =>
    rw [← List.append_assoc] at hn hp ht hc hw ha hnone
    have hr' : TokenStore.run X ((pre ++ post) ++ [o]) .empty = .ok s := by
      rw [List.append_assoc]; exact (storeRun_append _ _).2 ⟨s0, h0, hr⟩
    obtain ⟨s1, h1, h2⟩ := run_snoc hr'
    have h1' : TokenStore.run X post s0 = .ok s1 := by
      obtain ⟨s2, e1, e2⟩ := (storeRun_append _ _).1 h1
      rw [h0] at e1; cases e1; exact e2
    simp only [List.length_append, List.length_cons, List.length_nil] at hn
    have hw' : w = true → NoTwinClosed X pk (pre ++ post) := fun e o ho => hw e o (by simp at ho ⊢; tauto)
    obtain ⟨slots, orig, inv⟩ := free_inv (pk := pk) (by simp; omega) hw' h1
    simp only [List.length_append] at inv
    have hup : lastFinal ((pre ++ post) ++ [o]) = lastFinal (pre ++ post) ∨
        (0 < lastFinal (pre ++ post) → Ancestor par (lastFinal ((pre ++ post) ++ [o])) (lastFinal (pre ++ post))) := by
      rcases finalizing o with ⟨σ, info, rfl⟩ | hf
      · have hlo := lastFinal_snoc (pre ++ post) (.slot σ info .finalized)
        simp only at hlo
        by_cases hle : info.slot ≤ lastFinal (pre ++ post)
        · exact .inl (by omega)
        · rw [show lastFinal ((pre ++ post) ++ [TOp.slot σ info .finalized]) = info.slot by omega]
          exact .inr (hc (pre ++ post) σ info [] rfl (by omega)).1
      · exact .inl (lastFinal_snoc_of hf)
    have hnone' : ∀ a k, ¬ NewestTrue (pre ++ post) par pk (lastFinal (pre ++ post)) a k := by
      intro a k hx
      have hx' : NewestTrue ((pre ++ post) ++ [o]) par pk (lastFinal (pre ++ post)) a k :=
        newest_congr hd (fun i hi => submitted_frozen ht pk hi) hx
      rcases hup with e | e
      · exact hnone a k (by rw [e]; exact hx')
      · by_cases hz : lastFinal (pre ++ post) = 0
        · rw [hz] at hx; exact newest_zero hd (onTime_left ht) hx
        · obtain ⟨b, j, hb⟩ := newest_upward (e (by omega)) hx'
          exact hnone b j hb
    have ih := ih (by simp; omega) (parents_left hp) (onTime_left ht) (chained_left hc) hw' (accepted_left ha) h1' hnone'
      (fun o ho => hpost o (by simp [ho]))
    refine ih.trans ?_
    rcases finalizing o with ⟨σ, info, rfl⟩ | hf
    · obtain ⟨n, h3⟩ := step_slot h2
      obtain ⟨hs1, -⟩ := run_slots (pre ++ post) (by simp; omega) (parents_left hp) h1
      obtain ⟨slots', orig', fin', -, g2⟩ := finalized_own inv (by omega) h3
      rw [hs1] at g2
      have hpar := (parents_of (R := fun k p => p = par k ∧ p < k) (fun σ info c h => parents_left hp σ info c h) h1).2
      have hparn : ParentsIn (fun k p => p = par k) (noted s1 info (lastFinal (pre ++ post))) :=
        parents_noted (ParentsIn.imp hpar (fun _ _ h => h.1)) (hp σ info .finalized (by simp)).1
      have hrec : ∀ i, lastFinal (pre ++ post) < i → RecordedBy (Taken X (pre ++ post)) (submittedAt (pre ++ post) pk i)
          (stateAt (noted s1 info (lastFinal (pre ++ post))) i pk) := by
        intro i hi
        rw [stateAt_noted]
        exact stream_recorded (pre ++ post) (by simp; omega) (parents_left hp) (accepted_left ha) h1 hi
      refine (g2 ?_).1
      intro x k hx
      have hlow : lastFinal (pre ++ post) < k := by
        by_contra hle
        have hst := newestOn_state hx
        rw [stateAt_noted, stream_cleared (pre ++ post) (by simp; omega) (parents_left hp) (onTime_left ht) h1 (by omega)] at hst
        simp at hst
      obtain ⟨hk, b, hb, -⟩ := newestOn_above hd hparn hrec hlow hx
      refine hnone b k ?_
      have hlo := lastFinal_snoc (pre ++ post) (.slot σ info .finalized)
      simp only at hlo
      rw [show lastFinal ((pre ++ post) ++ [TOp.slot σ info .finalized]) = info.slot by omega]
      refine newest_congr (ops := pre ++ post) hd (fun i _ => ?_) hb
      rw [submissions_snoc]; simp [submittedAt]
    · exact (step_frame inv (by omega) (fun e a ha => hw e o (by simp) a ha) hf (fun a => hpost o (by simp) a) h2).1

/-! ## What the loader stores -/

/-- A mint that is loaded is known. -/
theorem init_known {X : Codecs} {n : Nat} {s s' : TokenStore} {slots orig : List TokenAccount}
    (h : Inv (fun _ => True) n s slots orig) (hn : n < 2 ^ 31 - 1) {a : AccountData} {bs : Bytes}
    (ho : TokenProgramOwned a .tokenProgram) (hd : HonestData X a.account.data bs) {sm : Spl.Mint} (hm : MintLayout bs sm)
    (hr : s.step X (.init a) = .ok s') : KnownMint s' a.pubkey := by
  obtain ⟨r, T, s1, slots1, orig1, a1, a2, -, -, -, -, -, -, -, -, a11⟩ := Sim.init_step h hn ho hd
  have e : s1 = s' := by
    have : s.step X (.init a) = .ok s1 := a2
    rw [hr] at this; cases this; rfl
  subst e
  obtain ⟨T', hcl⟩ := (C46_mint_iff X s.table a _ bs ho hd ⟨.tokenProgram, a.pubkey, a.account.lamports, sm.supply, sm.decimals, sm.isInitialized,
    sm.mintAuthority, sm.freezeAuthority, none⟩).2 ⟨rfl, rfl, sm, hm, by constructor <;> rfl⟩
  rw [a1] at hcl
  simp only [Run.ok.injEq, Prod.mk.injEq] at hcl
  obtain ⟨-, -, -, hrec, -⟩ := a11 _ hcl.1
  have := congrArg Rec.mint hrec
  simp only [recOf, Rec.apply, Option.map_eq_some_iff] at this
  obtain ⟨i, h1, h2⟩ := this
  exact ⟨i, _, h1, h2⟩

/-- A token account that is loaded is stored as classified. -/
theorem init_token {X : Codecs} {n : Nat} {s s' : TokenStore} {slots orig : List TokenAccount}
    (h : Inv (fun _ => True) n s slots orig) (hn : n < 2 ^ 31 - 1) {a : AccountData} {bs : Bytes}
    (ho : TokenProgramOwned a .tokenProgram) (hd : HonestData X a.account.data bs) {sa : Spl.Account} (hl : AccountLayout bs sa)
    (hr : s.step X (.init a) = .ok s') :
    ∃ t, classify X s.table a = .ok (some (.token t), s'.table) ∧ s'.tokens.getByPubkey a.pubkey = .ok (some t) := by
  obtain ⟨r, T, s1, slots1, orig1, a1, a2, a3, -, -, -, -, -, -, -, a11⟩ := Sim.init_step h hn ho hd
  have e : s1 = s' := by
    have : s.step X (.init a) = .ok s1 := a2
    rw [hr] at this; cases this; rfl
  subst e
  have hcl := (C46_token_iff X s.table a _ bs ho hd ⟨.tokenProgram, false, a.pubkey, sa.owner, (s.table.getOrCreate sa.mint).1, sa.amount,
      sa.state, sa.delegate.map (fun k => (k, sa.delegatedAmount)), sa.isNative, sa.closeAuthority, none⟩
      (s.table.getOrCreate sa.mint).2).2 ⟨rfl, rfl, sa, hl, by constructor <;> simp_all, rfl⟩
  have hcl' := hcl
  rw [a1] at hcl
  simp only [Run.ok.injEq, Prod.mk.injEq] at hcl
  obtain ⟨hr1, rfl⟩ := hcl
  have e2 : s1.table = (s.table.getOrCreate sa.mint).2 := by
    simp only [TokenStore.initAccount, isToken_owned ho, hcl', Run.ok_bind, Bool.not_true, Bool.false_eq_true, if_false,
      TokenStore.addFinalized, Run.bind_eq_ok] at a2
    obtain ⟨⟨⟨i, b⟩, tk⟩, -, a2⟩ := a2
    cases b <;> · simp at a2; subst a2; rfl
  obtain ⟨-, -, -, hrec, -⟩ := a11 _ hr1
  have := congrArg Rec.token hrec
  simp only [Rec.apply] at this
  exact ⟨_, by rw [e2]; exact hcl', by rw [getByPubkey_recOf a3.fin, this]⟩

end LAM.Token
