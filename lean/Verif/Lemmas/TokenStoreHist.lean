import Verif.Lemmas.TokenStoreChain
import Verif.Spec.TokenHistory
import Mathlib.Data.List.Induction
/-!
# States and parents recorded by a history
-/
namespace LAM.Token
open Spec ProcStore
open TokenStore (TOp)

/-- The state of `pk` recorded for slot `k`. -/
def stateAt (P : ProcStore) (k : Nat) (pk : Pubkey) : Option Processed := (BMap.find P k).bind (fun e => e.accounts.find pk)

theorem stateAt_insertAccount (P : ProcStore) (pk pk' : Pubkey) (x : ProgramAccount) (wv slot k : Nat) :
    stateAt (P.insertAccount pk' x wv slot).2 k pk =
      if slot = k ∧ pk' = pk then
        (match stateAt P k pk with
        | some old => if old.wv < wv then some ⟨x, wv⟩ else some old
        | none => some ⟨x, wv⟩)
      else stateAt P k pk := by
  unfold ProcStore.insertAccount stateAt
  cases hf : BMap.find P slot with
  | none =>
    simp only [BMap.find_insert]
    by_cases h1 : slot = k
    · subst h1
      by_cases h2 : pk' = pk
      · subst h2; simp [hf, AMap.find]
      · simp [hf, h2, AMap.find]
    · simp [h1]
  | some e =>
    by_cases h1 : slot = k
    · subst h1
      by_cases h2 : pk' = pk
      · subst h2
        cases hx : e.accounts.find pk' with
        | none => simp [hx, hf, BMap.find_insert, AMap.find_insert]
        | some old =>
          simp only [hf, hx, Option.bind_some, and_self, if_true]
          split
          · simp [BMap.find_insert, AMap.find_insert]
          · simp [hf, hx]
      · cases hx : e.accounts.find pk' with
        | none => simp [hf, hx, h2, BMap.find_insert, AMap.find_insert]
        | some old =>
          simp only [hf, h2, and_false, if_false, hx]
          split
          · simp [BMap.find_insert, AMap.find_insert, h2]
          · simp [hf]
    · cases hx : e.accounts.find pk' with
      | none => simp [h1, hx, BMap.find_insert]
      | some old =>
        simp only [h1, hx, false_and, if_false]
        split
        · simp [BMap.find_insert, h1]
        · rfl

theorem stateAt_updateSlotInfo (P : ProcStore) (info : SlotInfo) (k : Nat) (pk : Pubkey) :
    stateAt (P.updateSlotInfo info) k pk = stateAt P k pk := by
  unfold ProcStore.updateSlotInfo stateAt
  cases hf : BMap.find P info.slot with
  | none =>
    simp only [BMap.find_insert]
    by_cases h1 : info.slot = k
    · subst h1; simp [hf, AMap.find]
    · simp [h1]
  | some e =>
    simp only [BMap.find_insert]
    by_cases h1 : info.slot = k
    · subst h1; simp [hf]
    · simp [h1]

/-- The table has an entry for `k`. -/
theorem slot_known {X : Codecs} {s s' : TokenStore} {σ : Orders} {info : SlotInfo} {c : Commitment} (hc : c ≠ .finalized)
    (h : s.step X (.slot σ info c) = .ok s') : BMap.find s'.processed info.slot ≠ none := by
  have hu : ∀ P : ProcStore, BMap.find (P.updateSlotInfo info) info.slot ≠ none := by
    intro P; unfold ProcStore.updateSlotInfo; split <;> simp [BMap.find_insert]
  simp only [TokenStore.step, Run.bind_eq_ok] at h
  obtain ⟨⟨b, s1⟩, h1, h⟩ := h
  simp at h; subst h
  cases c with
  | processed =>
    simp only [TokenStore.processSlot, Run.ok.injEq, Prod.mk.injEq] at h1
    obtain ⟨-, rfl⟩ := h1
    exact hu _
  | confirmed =>
    simp only [TokenStore.processSlot, Run.bind_eq_ok] at h1
    obtain ⟨⟨l, P⟩, hg, h1⟩ := h1
    simp only [Run.pure_eq, Run.ok.injEq, Prod.mk.injEq] at h1
    obtain ⟨-, rfl⟩ := h1
    unfold ProcStore.getProcessedForSlot at hg
    split at hg
    · rename_i e he
      simp only [Run.bind_eq_ok] at hg
      obtain ⟨_, -, hg⟩ := hg
      simp at hg; obtain ⟨-, rfl⟩ := hg
      simp [he]
    · simp at hg; obtain ⟨-, rfl⟩ := hg; exact hu _
  | finalized => exact absurd rfl hc

/-- A submission that parses is entered. -/
theorem update_parses {X : Codecs} {s s' : TokenStore} {a : AccountData} {c : Commitment} {b : Bool} (hc : c ≠ .finalized)
    (hp : Parses X a) (h : s.updateAccount X a c = .ok (b, s')) :
    ∃ x T T', classify X T a = .ok (some x, T') ∧ s'.processed = (s.processed.insertAccount a.pubkey x a.wv a.slot).2 := by
  unfold TokenStore.updateAccount at h
  have ht : s.isTokenAccount a = .ok true := by
    unfold TokenStore.isTokenAccount
    rw [if_pos]
    rcases hp.1 with h | h <;> simp [h]
  obtain ⟨x, T', hx⟩ := hp.2 s.table
  rw [ht] at h
  simp only [Run.ok_bind, Bool.not_true, Bool.false_eq_true, if_false, hx] at h
  rw [if_pos (by cases c <;> simp_all)] at h
  simp only [Run.pure_eq, Run.ok.injEq, Prod.mk.injEq] at h
  obtain ⟨-, rfl⟩ := h
  exact ⟨x, _, _, hx, rfl⟩

theorem insert_known (P : ProcStore) (pk : Pubkey) (x : ProgramAccount) (wv slot : Nat) :
    BMap.find (P.insertAccount pk x wv slot).2 slot ≠ none := by
  unfold ProcStore.insertAccount
  split
  · rename_i e he
    split
    · split
      · simp [BMap.find_insert]
      · simp [he]
    · simp [BMap.find_insert]
  · simp [BMap.find_insert]

theorem step_known {X : Codecs} {s s' : TokenStore} {o : TOp} {k : Nat} (hf : ∀ σ info, o ≠ .slot σ info .finalized)
    (hk : Known X [o] k) (h : s.step X o = .ok s') : BMap.find s'.processed k ≠ none := by
  rcases hk with ⟨σ, info, c, ho, rfl⟩ | ⟨a, c, ho, hc, rfl, hp⟩
  · simp at ho; subst ho
    exact slot_known (fun e => hf σ info (by rw [e])) h
  · simp at ho; subst ho
    simp only [TokenStore.step, Run.bind_eq_ok] at h
    obtain ⟨⟨b, s1⟩, h1, h⟩ := h
    simp at h; subst h
    obtain ⟨x, -, -, -, e⟩ := update_parses hc hp h1
    rw [e]; exact insert_known _ _ _ _ _

theorem run_known {X : Codecs} {par : Nat → Nat} {ops : List TOp} {s : TokenStore} {k : Nat} (hu : Unfinalized ops)
    (hp : TrueParents par ops) (hr : TokenStore.run X ops .empty = .ok s) (hk : Known X ops k) :
    BMap.find s.processed k ≠ none := by
  obtain ⟨pre, o, post, rfl, ho⟩ : ∃ pre o post, ops = pre ++ o :: post ∧ Known X [o] k := by
    rcases hk with ⟨σ, info, c, ho, hk⟩ | ⟨a, c, ho, hk⟩
    · obtain ⟨pre, post, e⟩ := List.append_of_mem ho
      exact ⟨pre, _, post, e, .inl ⟨σ, info, c, by simp, hk⟩⟩
    · obtain ⟨pre, post, e⟩ := List.append_of_mem ho
      exact ⟨pre, _, post, e, .inr ⟨a, c, by simp, hk⟩⟩
  obtain ⟨s1, h1, h2⟩ := (storeRun_append _ _).1 hr
  simp only [TokenStore.run, Run.bind_eq_ok] at h2
  obtain ⟨s2, h2, h3⟩ := h2
  have := step_known (fun σ info e => hu σ info (by simp [← e])) ho h2
  refine (run_keeps (par := par) post ?_ h3 k).1 this
  intro σ info c hm
  exact ⟨fun e => hu σ info (by simp [← e, hm]), (hp σ info c (by simp [hm])).1⟩

/-- A slot notified as processed after it occurred has its parent recorded. -/
theorem run_linked {X : Codecs} {par : Nat → Nat} {ops : List TOp} {s : TokenStore} {k : Nat} (hu : Unfinalized ops)
    (hp : TrueParents par ops) (hr : TokenStore.run X ops .empty = .ok s) (hk : ParentKept X ops k) :
    ∃ e, BMap.find s.processed k = some e ∧ e.parent = some (par k) := by
  obtain ⟨pre, σ, info, post, rfl, rfl, hk⟩ := hk
  obtain ⟨s1, h1, h2⟩ := (storeRun_append _ _).1 hr
  simp only [TokenStore.run, Run.bind_eq_ok] at h2
  obtain ⟨s2, h2, h3⟩ := h2
  have hin := run_known (par := par) (fun σ info hm => hu σ info (by simp [hm])) (fun σ info c hm => hp σ info c (by simp [hm])) h1 hk
  have : ∃ e, BMap.find s2.processed info.slot = some e ∧ e.parent = some (par info.slot) := by
    simp only [TokenStore.step, TokenStore.processSlot, Run.ok_bind, Run.pure_eq, Run.ok.injEq] at h2
    subst h2
    unfold ProcStore.updateSlotInfo
    cases hf : BMap.find s1.processed info.slot with
    | none => exact absurd hf hin
    | some e => exact ⟨_, by simp only [BMap.find_insert, if_true]; rfl, by simp [(hp σ info .processed (by simp)).1]⟩
  refine (run_keeps (par := par) post ?_ h3 info.slot).2 this
  intro σ info c hm
  exact ⟨fun e => hu σ info (by simp [← e, hm]), (hp σ info c (by simp [hm])).1⟩

/-- What is recorded for `pk` at slot `k` is the classification of the best submission. -/
def Recorded (X : Codecs) (l : List AccountData) (x : Option Processed) : Prop :=
  (l = [] ∧ x = none) ∨ ∃ a y, x = some y ∧ Best l a ∧ y.wv = a.wv ∧ ∃ T T', classify X T a = .ok (some y.account, T')

theorem best_snoc_high {l : List AccountData} {a b : AccountData} (h : Best l a) (hb : a.wv < b.wv) : Best (l ++ [b]) b := by
  obtain ⟨l1, l2, rfl, h1, h2⟩ := h
  refine ⟨l1 ++ a :: l2, [], by simp, ?_, by simp⟩
  intro c hc
  simp only [List.mem_append, List.mem_cons] at hc
  rcases hc with hc | rfl | hc
  · have := h1 c hc; omega
  · exact hb
  · have := h2 c hc; omega

theorem best_snoc_low {l : List AccountData} {a b : AccountData} (h : Best l a) (hb : b.wv ≤ a.wv) : Best (l ++ [b]) a := by
  obtain ⟨l1, l2, rfl, h1, h2⟩ := h
  refine ⟨l1, l2 ++ [b], by simp, h1, ?_⟩
  intro c hc
  simp only [List.mem_append, List.mem_cons, List.not_mem_nil, or_false] at hc
  rcases hc with hc | rfl
  · exact h2 c hc
  · exact hb

theorem best_unique {l : List AccountData} {a b : AccountData} (ha : Best l a) (hb : Best l b) : a = b := by
  obtain ⟨l1, l2, rfl, h1, h2⟩ := ha
  obtain ⟨l3, l4, e, h3, h4⟩ := hb
  rcases Nat.lt_trichotomy l1.length l3.length with h | h | h
  · exfalso
    have hlt : l1.length < (l3 ++ b :: l4).length := by simp; omega
    have ha : a ∈ l3 := by
      have e1 : (l3 ++ b :: l4)[l1.length]? = some a := by rw [← e]; simp
      rw [List.getElem?_append_left h] at e1
      exact List.mem_of_getElem? e1
    have hb : b ∈ l2 := by
      have e1 : (l1 ++ a :: l2)[l3.length]? = some b := by rw [e]; simp
      rw [List.getElem?_append_right (by omega)] at e1
      obtain ⟨n, hn⟩ : ∃ n, l3.length - l1.length = n + 1 := ⟨l3.length - l1.length - 1, by omega⟩
      rw [hn, List.getElem?_cons_succ] at e1
      exact List.mem_of_getElem? e1
    have := h3 a ha; have := h2 b hb; omega
  · have e1 : (l1 ++ a :: l2)[l1.length]? = some a := by simp
    rw [e, h] at e1
    simp at e1
    exact e1.symm
  · exfalso
    have hb : b ∈ l1 := by
      have e1 : (l1 ++ a :: l2)[l3.length]? = some b := by rw [e]; simp
      rw [List.getElem?_append_left h] at e1
      exact List.mem_of_getElem? e1
    have ha : a ∈ l4 := by
      have e1 : (l3 ++ b :: l4)[l1.length]? = some a := by rw [← e]; simp
      rw [List.getElem?_append_right (by omega)] at e1
      obtain ⟨n, hn⟩ : ∃ n, l1.length - l3.length = n + 1 := ⟨l1.length - l3.length - 1, by omega⟩
      rw [hn, List.getElem?_cons_succ] at e1
      exact List.mem_of_getElem? e1
    have := h1 b hb; have := h4 a ha; omega

theorem submissions_snoc (ops : List TOp) (o : TOp) (pk : Pubkey) (k : Nat) :
    submittedAt (ops ++ [o]) pk k = submittedAt ops pk k ++ submittedAt [o] pk k := by
  simp [submittedAt]

/-- A slot notification that finalizes nothing changes no recorded state. -/
theorem slot_stateAt {s s' : TokenStore} {σ : Orders} {info : SlotInfo} {c : Commitment} (hc : c ≠ .finalized)
    {n : List AccountData} (h : s.processSlot σ info c = .ok (n, s')) (k : Nat) (pk : Pubkey) :
    stateAt s'.processed k pk = stateAt s.processed k pk := by
  cases c with
  | processed =>
    simp only [TokenStore.processSlot, Run.ok.injEq, Prod.mk.injEq] at h
    obtain ⟨-, rfl⟩ := h
    exact stateAt_updateSlotInfo _ _ _ _
  | confirmed =>
    obtain ⟨-, e | e, -⟩ := confirmed_processed h
    · rw [e]
    · rw [e]; exact stateAt_updateSlotInfo _ _ _ _
  | finalized => exact absurd rfl hc

/-- The finalized submission paths do not touch the table. -/
theorem update_final_processed {X : Codecs} {s s' : TokenStore} {a : AccountData} {b : Bool}
    (h : s.updateAccount X a .finalized = .ok (b, s')) : s'.processed = s.processed := by
  unfold TokenStore.updateAccount at h
  simp only [Run.bind_eq_ok] at h
  obtain ⟨isT, -, h⟩ := h
  split at h
  · simp at h; obtain ⟨-, rfl⟩ := h; rfl
  · simp only [Run.bind_eq_ok] at h
    obtain ⟨⟨r, T⟩, -, h⟩ := h
    simp only at h
    split at h
    · simp at h; obtain ⟨-, rfl⟩ := h; rfl
    · rw [if_neg (by simp)] at h
      simp only [Run.bind_eq_ok] at h
      obtain ⟨s1, hs1, h⟩ := h
      simp only [Run.pure_eq, Run.ok.injEq, Prod.mk.injEq] at h
      obtain ⟨-, rfl⟩ := h
      exact (addFinalized_processed hs1).1

theorem recorded_step {X : Codecs} {s s' : TokenStore} {o : TOp} {l : List AccountData} {k : Nat} {pk : Pubkey}
    (hf : ∀ σ info, o ≠ .slot σ info .finalized) (hp : ∀ a c, o = .update a c → c ≠ .finalized → a.pubkey = pk → Parses X a)
    (h : Recorded X l (stateAt s.processed k pk)) (hr : s.step X o = .ok s') :
    Recorded X (l ++ submittedAt [o] pk k) (stateAt s'.processed k pk) := by
  cases o with
  | slot σ info c =>
    simp only [TokenStore.step, Run.bind_eq_ok] at hr
    obtain ⟨⟨b, s1⟩, h1, hr⟩ := hr
    simp at hr; subst hr
    rw [slot_stateAt (fun e => hf σ info (by rw [e])) h1]
    simpa [submittedAt] using h
  | init a =>
    simp only [TokenStore.step, init_eq_update, Run.bind_eq_ok] at hr
    obtain ⟨⟨b, s1⟩, h1, hr⟩ := hr
    simp at hr; subst hr
    rw [update_final_processed h1]
    simpa [submittedAt] using h
  | update a c =>
    simp only [TokenStore.step, Run.bind_eq_ok] at hr
    obtain ⟨⟨b, s1⟩, h1, hr⟩ := hr
    simp at hr; subst hr
    by_cases hc : c = .finalized
    · subst hc
      rw [update_final_processed h1]
      simpa [submittedAt] using h
    by_cases hm : a.pubkey = pk ∧ a.slot = k
    · obtain ⟨x, T, T', hx, e⟩ := update_parses hc (hp a c rfl hc hm.1) h1
      have hs : submittedAt [TOp.update a c] pk k = [a] := by simp [submittedAt, hc, hm.1, hm.2]
      rw [hs, e, stateAt_insertAccount, if_pos ⟨hm.2, hm.1⟩]
      rcases h with ⟨rfl, h⟩ | ⟨a0, y, h, hb, hw, hcl⟩
      · rw [h]
        exact .inr ⟨a, ⟨x, a.wv⟩, rfl, ⟨[], [], rfl, by simp, by simp⟩, rfl, T, T', hx⟩
      · rw [h]
        simp only
        by_cases hlt : y.wv < a.wv
        · rw [if_pos hlt]
          exact .inr ⟨a, ⟨x, a.wv⟩, rfl, best_snoc_high hb (by omega), rfl, T, T', hx⟩
        · rw [if_neg hlt]
          exact .inr ⟨a0, y, rfl, best_snoc_low hb (by omega), hw, hcl⟩
    · have hs : submittedAt [TOp.update a c] pk k = [] := by
        simp only [submittedAt, List.filterMap_cons, List.filterMap_nil]
        rw [if_neg (by tauto)]
      rw [hs, List.append_nil]
      rcases (update_processed h1).2 with e | ⟨x, e⟩
      · rw [e]; exact h
      · rw [e, stateAt_insertAccount, if_neg (by tauto)]; exact h

theorem run_recorded {X : Codecs} {s : TokenStore} {k : Nat} {pk : Pubkey} (ops : List TOp) (hu : Unfinalized ops)
    (hp : ∀ a c, TOp.update a c ∈ ops → c ≠ .finalized → a.pubkey = pk → Parses X a)
    (hr : TokenStore.run X ops .empty = .ok s) : Recorded X (submittedAt ops pk k) (stateAt s.processed k pk) := by
  induction ops using List.reverseRecOn generalizing s with
  | nil => simp [TokenStore.run] at hr; subst hr; exact .inl ⟨rfl, rfl⟩
  | append_singleton ops o ih =>
    obtain ⟨s1, h1, h2⟩ := (storeRun_append _ _).1 hr
    simp only [TokenStore.run, Run.bind_eq_ok] at h2
    obtain ⟨s2, h2, h3⟩ := h2
    simp at h3; subst h3
    rw [submissions_snoc]
    exact recorded_step (fun σ info e => hu σ info (by simp [← e])) (fun a c e => hp a c (by simp [← e]))
      (ih (fun σ info hm => hu σ info (by simp [hm])) (fun a c hm => hp a c (by simp [hm])) h1) h2

theorem confirmedOf_snoc (ops : List TOp) (o : TOp) : confirmedOf (ops ++ [o]) =
    match o with | .slot _ info .confirmed => max (confirmedOf ops) info.slot | _ => confirmedOf ops := by
  simp only [confirmedOf, List.foldl_append, List.foldl_cons, List.foldl_nil]
  cases o with
  | slot σ info c => cases c <;> rfl
  | _ => rfl

theorem run_confirmed {X : Codecs} {s : TokenStore} (ops : List TOp) (hu : Unfinalized ops)
    (hr : TokenStore.run X ops .empty = .ok s) : s.confirmedSlot = confirmedOf ops := by
  induction ops using List.reverseRecOn generalizing s with
  | nil => simp [TokenStore.run] at hr; subst hr; rfl
  | append_singleton ops o ih =>
    obtain ⟨s1, h1, h2⟩ := (storeRun_append _ _).1 hr
    simp only [TokenStore.run, Run.bind_eq_ok] at h2
    obtain ⟨s2, h2, h3⟩ := h2
    simp at h3; subst h3
    have ih := ih (fun σ info hm => hu σ info (by simp [hm])) h1
    have hco := confirmedOf_snoc ops o
    cases o with
    | update a c =>
      simp only [TokenStore.step, Run.bind_eq_ok] at h2
      obtain ⟨⟨b, s3⟩, h3, h2⟩ := h2
      simp at h2; subst h2
      rw [(update_processed h3).1, ih, hco]
    | init a =>
      simp only [TokenStore.step, init_eq_update, Run.bind_eq_ok] at h2
      obtain ⟨⟨b, s3⟩, h3, h2⟩ := h2
      simp at h2; subst h2
      rw [(update_processed h3).1, ih, hco]
    | slot σ info c =>
      simp only [TokenStore.step, Run.bind_eq_ok] at h2
      obtain ⟨⟨b, s3⟩, h3, h2⟩ := h2
      simp at h2; subst h2
      cases c with
      | processed =>
        simp only [TokenStore.processSlot, Run.ok.injEq, Prod.mk.injEq] at h3
        obtain ⟨-, rfl⟩ := h3
        rw [hco]; exact ih
      | confirmed => rw [(confirmed_processed h3).1, ih, hco]
      | finalized => exact absurd (by simp) (hu σ info)

/-- Recorded links are true links, so what is found on the recorded chain is the newest on the true one. -/
theorem newestOn_true {X : Codecs} {P : ProcStore} {ops : List TOp} {par : Nat → Nat} {pk : Pubkey} {s k : Nat} {x : Processed}
    (hp : ParentsIn (fun k p => p = par k) P) (hrec : ∀ k, Recorded X (submittedAt ops pk k) (stateAt P k pk))
    (h : NewestOn P pk s x k) :
    ∃ a, NewestTrue ops par pk s a k ∧ x.wv = a.wv ∧ ∃ T T', classify X T a = .ok (some x.account, T') := by
  induction h with
  | @here s e x he hx =>
    have hst : stateAt P s pk = some x := by simp [stateAt, he, hx]
    rcases hrec s with ⟨-, h⟩ | ⟨a, y, h, hb, hw, hcl⟩
    · rw [hst] at h; simp at h
    · rw [hst] at h; cases h
      exact ⟨a, .here hb, hw, hcl⟩
  | @up s e p x k he hx hpar _ ih =>
    obtain ⟨a, h1, h2⟩ := ih
    refine ⟨a, .up ?_ ?_, h2⟩
    · rcases hrec s with ⟨h, -⟩ | ⟨a, y, h, -⟩
      · exact h
      · simp [stateAt, he, hx] at h
    · rw [← hp s e p he hpar]; exact h1

theorem ancestor_of_newest {ops : List TOp} {par : Nat → Nat} {pk : Pubkey} {s k : Nat} {a : AccountData}
    (h : NewestTrue ops par pk s a k) : Ancestor par s k := by
  induction h with
  | here _ => exact .here
  | up _ _ ih => exact .up ih

theorem newest_submitted {ops : List TOp} {par : Nat → Nat} {pk : Pubkey} {s k : Nat} {a : AccountData}
    (h : NewestTrue ops par pk s a k) : submittedAt ops pk k ≠ [] := by
  induction h with
  | here hb => rintro e; rw [e] at hb; obtain ⟨l1, l2, h, -⟩ := hb; simp at h
  | up _ _ ih => exact ih

theorem parents_of {X : Codecs} {R : Nat → Nat → Prop} {ops : List TOp} {s : TokenStore}
    (ho : ∀ σ info c, TOp.slot σ info c ∈ ops → R info.slot info.parent) (hr : TokenStore.run X ops .empty = .ok s) :
    BMap.Sorted s.processed ∧ ParentsIn R s.processed :=
  run_parents ops (s := .empty) List.Pairwise.nil (by intro k e p h; simp [TokenStore.empty] at h) ho hr

/-- With all links on the way recorded, the newest submitted state is found. -/
theorem newestTrue_on {X : Codecs} {P : ProcStore} {ops : List TOp} {par : Nat → Nat} {pk : Pubkey} {s k : Nat} {a : AccountData}
    (hrec : ∀ k, Recorded X (submittedAt ops pk k) (stateAt P k pk))
    (hl : ∀ i, Ancestor par s i → submittedAt ops pk i = [] → Ancestor par i k → ∃ e, BMap.find P i = some e ∧ e.parent = some (par i))
    (h : NewestTrue ops par pk s a k) :
    ∃ x, NewestOn P pk s x k ∧ x.wv = a.wv ∧ ∃ T T', classify X T a = .ok (some x.account, T') := by
  induction h with
  | @here s a hb =>
    rcases hrec s with ⟨h, -⟩ | ⟨a', y, h, hb', hw, hcl⟩
    · rw [h] at hb; obtain ⟨l1, l2, h, -⟩ := hb; simp at h
    · cases best_unique hb hb'
      refine ⟨y, ?_, hw, hcl⟩
      unfold stateAt at h
      cases he : BMap.find P s with
      | none => simp [he] at h
      | some e => exact .here he (by simpa [he] using h)
  | @up s a k hs hn ih =>
    obtain ⟨x, h1, h2⟩ := ih (fun i hi => hl i (.up hi))
    obtain ⟨e, he, hpe⟩ := hl s .here hs (.up (ancestor_of_newest hn))
    refine ⟨x, .up he ?_ hpe h1, h2⟩
    rcases hrec s with ⟨-, h⟩ | ⟨a', y, h, hb', -⟩
    · simpa [stateAt, he] using h
    · rw [hs] at hb'; obtain ⟨l1, l2, h, -⟩ := hb'; simp at h

end LAM.Token

namespace LAM.Token
open Spec ProcStore Run
open TokenStore (TOp)

/-! ## Every call ends -/

theorem ends_pubkeyOf (b : Bytes) : (pubkeyOf b).Ends := by unfold pubkeyOf; split <;> simp [Ends]

theorem ends_firstMatch (accounts : List Bytes) (pk : Pubkey) (is : List Nat) : (firstMatch accounts pk is).Ends := by
  induction is with
  | nil => exact ends_ok _
  | cons i is ih =>
    refine (ends_unwrap _).bind (fun b _ => Ends.bind ?_ (fun k _ => ?_))
    · exact (ends_slice _ _ _).bind (fun _ _ => ends_pubkeyOf _)
    · split
      · exact ends_ok _
      · exact ih

theorem ends_contains (s : TokenStorage) (pk : Pubkey) : (s.contains pk).Ends := by
  unfold TokenStorage.contains
  split
  · split
    · exact ends_firstMatch _ _ _
    · exact (ends_unwrap _).bind (fun _ _ => ends_ok _)
  · exact ends_ok _

theorem ends_save (s : TokenStorage) (t : TokenAccount) : (s.save t).Ends := by
  unfold TokenStorage.save
  split
  · refine (ends_firstMatch _ _ _).bind (fun r _ => ?_)
    cases r <;> exact ends_ok _
  · exact ends_ok _

theorem ends_delete (s : TokenStorage) (pk : Pubkey) : (s.delete pk).Ends := by
  unfold TokenStorage.delete
  split
  · refine (ends_firstMatch _ _ _).bind (fun r _ => ?_)
    cases r <;> exact ends_ok _
  · exact ends_ok _

theorem ends_getByPubkey (s : TokenStorage) (pk : Pubkey) : (s.getByPubkey pk).Ends := by
  unfold TokenStorage.getByPubkey
  split
  · refine (ends_firstMatch _ _ _).bind (fun r _ => ?_)
    cases r with
    | none => exact ends_ok _
    | some i => exact (ends_unwrap _).bind (fun _ _ => (ends_unwrap _).bind (fun _ _ => ends_ok _))
  · exact ends_ok _

theorem ends_multisigToSolana (m : MultiSig) (pk : Pubkey) (slot wv : Nat) : (multisigToSolana m pk slot wv).Ends := by
  unfold multisigToSolana multisigBytes
  split <;> simp [Ends]

theorem ends_getFinalized (s : TokenStore) (pk : Pubkey) : (s.getFinalized pk).Ends := by
  unfold TokenStore.getFinalized
  split
  · exact (ends_multisigToSolana _ _ _ _).bind (fun _ _ => ends_ok _)
  · split
    · exact (ends_unwrap _).bind (fun _ _ => ends_ok _)
    · refine (ends_getByPubkey _ _).bind (fun r _ => ?_)
      split
      · split
        · exact ends_ok _
        · exact tokenToSolana_ne_diverge _ _ _ _
      · exact ends_ok _

theorem ends_tail165 (d : Bytes) (b : Bool) : (tail165 d b).Ends := by
  unfold tail165
  split
  · exact (ends_slice _ _ _).bind (fun _ _ => ends_ok _)
  · exact ends_ok _

theorem ends_classify (X : Codecs) (T : MintTable) (a : AccountData) : (classify X T a).Ends := by
  unfold classify
  split
  · exact ends_ok _
  · split
    · refine (ends_data X _).bind (fun d _ => Ends.bind ?_ (fun r _ => ?_))
      · unfold kind2022
        repeat' split
        all_goals simp [Ends]
      · split
        · exact ends_ok _
        · split
          · exact ends_ok _
          · exact (ends_tail165 _ _).bind (fun _ _ => ends_ok _)
        · split
          · exact ends_ok _
          · exact (ends_tail165 _ _).bind (fun _ _ => ends_ok _)
        · split <;> exact ends_ok _
    · refine (ends_data X _).bind (fun d _ => ?_)
      split
      · split <;> exact ends_ok _
      · split
        · split <;> exact ends_ok _
        · split <;> exact ends_ok _

theorem ends_addFinalized (s : TokenStore) (x : ProgramAccount) : (s.addFinalized x).Ends := by
  cases x with
  | token t =>
    refine (ends_save _ _).bind (fun r _ => ?_)
    obtain ⟨⟨i, b⟩, tk⟩ := r
    cases b <;> exact ends_ok _
  | mint m => simp only [TokenStore.addFinalized]; split <;> exact ends_ok _
  | multisig m pk => exact ends_ok _
  | deleted pk =>
    simp only [TokenStore.addFinalized]
    split
    · exact ends_ok _
    · exact (ends_delete _ _).bind (fun _ _ => ends_ok _)

theorem ends_addAll (l : List (Processed × Nat)) (s : TokenStore) : (TokenStore.addAll l s).Ends := by
  induction l generalizing s with
  | nil => exact ends_ok _
  | cons a l ih => exact (ends_addFinalized _ _).bind (fun _ _ => ih _)

theorem ends_isTokenAccount (s : TokenStore) (a : AccountData) : (s.isTokenAccount a).Ends := by
  unfold TokenStore.isTokenAccount
  split
  · exact ends_ok _
  · exact (ends_contains _ _).bind (fun _ _ => ends_ok _)

theorem ends_updateAccount (X : Codecs) (s : TokenStore) (a : AccountData) (c : Commitment) : (s.updateAccount X a c).Ends := by
  refine (ends_isTokenAccount _ _).bind (fun b _ => ?_)
  split
  · exact ends_ok _
  · refine (ends_classify _ _ _).bind (fun r _ => ?_)
    obtain ⟨r, T⟩ := r
    cases r with
    | none => exact ends_ok _
    | some x =>
      simp only
      split
      · exact ends_ok _
      · exact (ends_addFinalized _ _).bind (fun _ _ => ends_ok _)

theorem ends_getProcessedForSlot (P : ProcStore) (info : SlotInfo) (mints : AMap Nat MintAccount) :
    (P.getProcessedForSlot info mints).Ends := by
  unfold ProcStore.getProcessedForSlot
  split
  · exact Ends.bind (toSolanaAll_ne_diverge _ _) (fun _ _ => ends_ok _)
  · exact ends_ok _

theorem ends_processSlot (s : TokenStore) (σ : Orders) (info : SlotInfo) (c : Commitment) : (s.processSlot σ info c).Ends := by
  cases c with
  | processed => exact ends_ok _
  | confirmed =>
    refine Ends.bind (ends_getProcessedForSlot _ _ _) (fun r _ => ?_)
    exact ends_ok _
  | finalized =>
    simp only [TokenStore.processSlot]
    refine Ends.bind ?_ (fun r _ => ?_)
    · unfold ProcStore.finalize
      refine Ends.bind ?_ (fun r _ => ends_ok _)
      obtain ⟨r, hr⟩ := finalizeLoop_total _ (if s.finalizedSlot < info.slot then
        { s with finalizedSlot := info.slot, processed := s.processed.updateSlotInfo info } else s).processed [] info.slot (Nat.lt_succ_self _)
      rw [hr]; exact ends_ok _
    · exact Ends.bind (toSolanaAll_ne_diverge _ _) (fun _ _ => (ends_addAll _ _).bind (fun _ _ => ends_ok _))

theorem ends_step (X : Codecs) (s : TokenStore) (o : TOp) : (s.step X o).Ends := by
  cases o with
  | update a c => exact (ends_updateAccount _ _ _ _).bind (fun _ _ => ends_ok _)
  | init a =>
    simp only [TokenStore.step, init_eq_update]
    exact (ends_updateAccount _ _ _ _).bind (fun _ _ => ends_ok _)
  | slot σ info c => exact (ends_processSlot _ _ _ _).bind (fun _ _ => ends_ok _)

theorem ends_run (X : Codecs) (ops : List TOp) (s : TokenStore) : (TokenStore.run X ops s).Ends := by
  induction ops generalizing s with
  | nil => exact ends_ok _
  | cons o os ih => exact (ends_step _ _ _).bind (fun _ _ => ih _)

/-- Reads end if the walk over the unfinalized states ends. -/
theorem ends_getAccount {s : TokenStore} {pk : Pubkey} {c : Commitment}
    (h : c ≠ .finalized → (s.processed.getAccounts [pk] c s.confirmedSlot).Ends) : (s.getAccount pk c).Ends := by
  unfold TokenStore.getAccount
  split
  · exact ends_getFinalized _ _
  · rename_i hc
    refine (h hc).bind (fun r _ => (ends_unwrap _).bind (fun o _ => ?_))
    split
    · exact toSolana_ne_diverge _ _ _ _
    · exact ends_getFinalized _ _

theorem ends_getProgramAccounts {X : Codecs} {σ : Orders} {s : TokenStore} {program : Pubkey}
    {filters : Option (List AccountFilterType)} {c : Commitment}
    (h : c ≠ .finalized → ∀ pks, (s.processed.getAccounts pks c s.confirmedSlot).Ends) :
    (s.getProgramAccounts X σ program filters c).Ends := by
  unfold TokenStore.getProgramAccounts
  split
  · exact ends_ok _
  · refine (ends_gpaFinalized _ _ _ _ _).bind (fun r _ => ?_)
    split
    · exact ends_ok _
    · split
      · exact ends_ok _
      · rename_i hc
        exact (h hc _).bind (fun _ _ => (ends_overlay _ _ _).bind (fun _ _ => ends_ok _))

end LAM.Token
