import Verif.Lemmas.StoreConcCalls
import Verif.Lemmas.Gpa
import Mathlib.Data.List.Forall2
/-!
# Concurrent calls of the in-memory account store: what `get_program_accounts` returns
-/
namespace LAM.Conc
open Store World Spec

/-- The filters covered the query at some moment. -/
def Served (vs : List World) (p : Pubkey) (fs : Option (List AccountFilterType)) : Prop :=
  ∃ v ∈ vs, v.filters.contains ⟨[], some p, fs⟩ = true

/-- This is what the account at `i` contributed to the answer at some moment. -/
def Contributes (E : Env) (vs : List World) (p : Pubkey) (fs : Option (List AccountFilterType)) (c : Commitment) (i : Nat)
    (part : List AccountData) : Prop :=
  ∃ v ∈ vs, ∃ e, v.st.accounts[i]? = some e ∧ gpaOne E.codecs e c p fs = .ok part ∧ v.AccountFree i

/-- The answers to a query that was executed while the states `vs` were passed through. -/
inductive QueryAnswer (E : Env) (vs : List World) (p : Pubkey) (fs : Option (List AccountFilterType)) (c : Commitment) : Reply → Prop where
  /-- the filters do not cover the query -/
  | refused (v) (hb : v ∈ vs) (h : v.filters.contains ⟨[], some p, fs⟩ = false) :
      QueryAnswer E vs p fs c (.accounts (.error .configDoesNotContainRequiredFilters))
  /-- what each account in the set of the owner contributed -/
  | found (hs : Served vs p fs) (v) (hb : v ∈ vs) (done : List Nat) (parts : List (List AccountData))
      (hd : done.Perm ((v.st.byOwner p).getD [])) (h : List.Forall₂ (Contributes E vs p fs c) done parts) :
      QueryAnswer E vs p fs c (.accounts (.ok parts.flatten))
  /-- the filters cannot be applied to an account -/
  | panicked (hs : Served vs p fs) (u) (hu : u ∈ vs) (v) (i : Nat) (e) (hb : v ∈ vs) (hi : i ∈ (u.st.byOwner p).getD []) (he : v.st.accounts[i]? = some e)
      (h : ∀ part, gpaOne E.codecs e c p fs ≠ .ok part) : QueryAnswer E vs p fs c .panicked

/-- What a thread that executes this query has in hand; `vs` are the states passed through since the call began. -/
def GpaOK (E : Env) (vs : List World) (p : Pubkey) (fs : Option (List AccountFilterType)) (c : Commitment) : Pc → Prop
  | .gpContains p' fs' c' => p' = p ∧ fs' = fs ∧ c' = c
  | .gpOwner p' fs' c' | .gpStore p' fs' c' | .gpSet p' fs' c' => (p' = p ∧ fs' = fs ∧ c' = c) ∧ Served vs p fs
  | .gpScan p' fs' c' l retry out => (p' = p ∧ fs' = fs ∧ c' = c) ∧ Served vs p fs ∧
    ∃ v done parts, v ∈ vs ∧ (done ++ retry ++ l).Perm ((v.st.byOwner p).getD []) ∧
      List.Forall₂ (Contributes E vs p fs c) done parts ∧ out = parts.flatten
  | .gpRetry p' fs' c' l out => (p' = p ∧ fs' = fs ∧ c' = c) ∧ Served vs p fs ∧
    ∃ v done parts, v ∈ vs ∧ (done ++ l).Perm ((v.st.byOwner p).getD []) ∧
      List.Forall₂ (Contributes E vs p fs c) done parts ∧ out = parts.flatten
  | _ => False

theorem Served.later {vs : List World} {w' : World} {p : Pubkey} {fs : Option (List AccountFilterType)} (h : Served vs p fs) :
    Served (vs ++ [w']) p fs := by
  obtain ⟨v, h1, h2⟩ := h
  exact ⟨v, by simp [h1], h2⟩

theorem contributes_later {E : Env} {vs : List World} {w' : World} {p : Pubkey} {fs : Option (List AccountFilterType)} {c : Commitment}
    {done : List Nat} {parts : List (List AccountData)} (h : List.Forall₂ (Contributes E vs p fs c) done parts) :
    List.Forall₂ (Contributes E (vs ++ [w']) p fs c) done parts :=
  h.imp fun _ _ ⟨v, h1, e, h2, h3⟩ => ⟨v, by simp [h1], e, h2, h3⟩

theorem GpaOK.later {E : Env} {vs : List World} {w' : World} {p : Pubkey} {fs : Option (List AccountFilterType)} {c : Commitment}
    {q : Pc} (h : GpaOK E vs p fs c q) : GpaOK E (vs ++ [w']) p fs c q := by
  cases q with
  | gpContains => exact h
  | gpOwner | gpStore | gpSet => exact ⟨h.1, h.2.later⟩
  | gpScan | gpRetry =>
    obtain ⟨h1, h2, v, done, parts, h3, h4, h5, h6⟩ := h
    exact ⟨h1, h2.later, v, done, parts, by simp [h3], h4, contributes_later h5, h6⟩
  | _ => exact h.elim

theorem forall₂_snoc {α β : Type} {R : α → β → Prop} {l : List α} {m : List β} {a : α} {b : β} (h : List.Forall₂ R l m) (hr : R a b) :
    List.Forall₂ R (l ++ [a]) (m ++ [b]) := by
  induction h with
  | nil => exact .cons hr .nil
  | cons h _ ih => exact .cons h ih

/-- A step while a query is executed. -/
theorem gpa_step {E : Env} {key : Nat → Pubkey} {w w' : World} {vs : List World} (now : w ∈ vs) (hs : Step E w w') (hg : Good E key w) {t : Nat}
    {p : Pubkey} {fs : Option (List AccountFilterType)} {c : Commitment} (h : GpaOK E vs p fs c (w.pc t)) :
    GpaOK E (vs ++ [w']) p fs c (w'.pc t) ∨ ∃ r, w'.log = w.log ++ [(t, .ret r)] ∧ QueryAnswer E vs p fs c r := by
  by_cases hsame : w'.pc t = w.pc t
  · rw [hsame]; exact .inl (h.later)
  have here : ∀ {x : Nat} {q : Pc}, w'.pc = upd w.pc x q → x = t := by
    intro x q hq
    by_contra hx
    exact hsame (by rw [hq, upd_other (Ne.symm hx)])
  have visit : ∀ {i : Nat} (next : List AccountData → Pc), i < w.st.accounts.length → w.AccountFree i → w' = doVisit E w t p fs c i next →
      (∃ part, w' = w.go t w.st (next part) ∧ Contributes E vs p fs c i part) ∨
      ∃ r, w'.log = w.log ++ [(t, .ret r)] ∧ (Served vs p fs → (∃ u ∈ vs, i ∈ (u.st.byOwner p).getD []) →
        QueryAnswer E vs p fs c r) := by
    intro i next hi hf hv
    have he := List.getElem?_eq_getElem hi
    generalize w.st.accounts[i] = e at he
    unfold doVisit at hv
    rw [he] at hv
    simp only at hv
    cases hgo : gpaOne E.codecs e c p fs with
    | ok part => rw [hgo] at hv; exact .inl ⟨part, hv, w, now, e, he, hgo, hf⟩
    | _ =>
      rw [hgo] at hv
      exact .inr ⟨.panicked, by rw [hv]; rfl, fun hs ⟨u, hu, hi⟩ => .panicked hs u hu w i e now hi he (by rw [hgo]; simp)⟩
  have hpcs := hg.pcs t
  have h' := h.later (w' := w')
  cases hs
  case env => exact (hsame rfl).elim
  case call x k hp => obtain rfl := here rfl; rw [hp] at h; exact h.elim
  case upWrite x a c' i hp =>
    rcases doWrite_pc w x a c' i with ⟨_, _, e⟩ | ⟨_, _, _, e⟩ | ⟨_, e⟩
    all_goals (obtain rfl := here (by rw [e]; rfl); rw [hp] at h; exact h.elim)
  case prPromote x c' i slot l out hp =>
    rcases doPromote_pc w x c' i slot l out with ⟨_, _, e⟩ | ⟨_, _, e⟩ | ⟨_, _, _, _, e⟩ | ⟨_, _, e⟩
    all_goals (obtain rfl := here (by rw [e]; rfl); rw [hp] at h; exact h.elim)
  case geRead x pk c' i hp hf =>
    obtain ⟨_, e⟩ := doRead_pc w x c' i
    obtain rfl := here (by rw [e]; rfl); rw [hp] at h; exact h.elim
  case gpVisit x p' fs' c' i l retry out hp hf =>
    have hx : x = t := by
      rcases doVisit_pc E w x p' fs' c' i (fun r => .gpScan p' fs' c' l retry (out ++ r)) with ⟨_, e⟩ | ⟨_, e⟩
      all_goals exact here (by rw [e]; rfl)
    subst hx
    rw [hp] at h h' hpcs
    obtain ⟨⟨rfl, rfl, rfl⟩, h2, v, done, parts, h3, h4, h5, h6⟩ := h
    rcases visit _ (hpcs.1 i (by simp)) hf rfl with ⟨part, e, hpart⟩ | ⟨r, e, hr⟩
    · left
      rw [e]
      rw [go_pc, upd_self]
      have hv : List.Forall₂ (Contributes E vs p' fs' c') (done ++ [i]) (parts ++ [part]) := forall₂_snoc h5 hpart
      refine ⟨⟨rfl, rfl, rfl⟩, h2.later, v, done ++ [i], parts ++ [part], by simp [h3], ?_, contributes_later hv, by simp [h6]⟩
      refine .trans ?_ h4
      rw [List.append_assoc, List.append_assoc, List.append_assoc]
      exact List.Perm.append_left _ (by
        rw [List.singleton_append]; exact List.perm_middle.symm)
    · exact .inr ⟨r, e, hr h2 ⟨v, h3, h4.mem_iff.1 (by simp)⟩⟩
  case gpRetry x p' fs' c' i l out hp hf =>
    have hx : x = t := by
      rcases doVisit_pc E w x p' fs' c' i (fun r => .gpRetry p' fs' c' l (out ++ r)) with ⟨_, e⟩ | ⟨_, e⟩
      all_goals exact here (by rw [e]; rfl)
    subst hx
    rw [hp] at h h' hpcs
    obtain ⟨⟨rfl, rfl, rfl⟩, h2, v, done, parts, h3, h4, h5, h6⟩ := h
    rcases visit _ (hpcs.1 i (by simp)) hf rfl with ⟨part, e, hpart⟩ | ⟨r, e, hr⟩
    · left
      rw [e]
      rw [go_pc, upd_self]
      have hv : List.Forall₂ (Contributes E vs p' fs' c') (done ++ [i]) (parts ++ [part]) := forall₂_snoc h5 hpart
      exact ⟨⟨rfl, rfl, rfl⟩, h2.later, v, done ++ [i], parts ++ [part], by simp [h3], by simpa using h4,
        contributes_later hv, by simp [h6]⟩
    · exact .inr ⟨r, e, hr h2 ⟨v, h3, h4.mem_iff.1 (by simp)⟩⟩
  case gpRefused x p' fs' c' hp hc =>
    obtain rfl := here rfl; rw [hp] at h
    obtain ⟨rfl, rfl, rfl⟩ := h
    exact .inr ⟨_, rfl, .refused w now hc⟩
  case gpContains x p' fs' c' hp hc =>
    obtain rfl := here rfl; rw [hp] at h
    obtain ⟨rfl, rfl, rfl⟩ := h
    left; rw [go_pc, upd_self]
    exact ⟨⟨rfl, rfl, rfl⟩, w, by simp [now], hc⟩
  case gpNone x p' fs' c' hp hc =>
    obtain rfl := here rfl; rw [hp] at h
    obtain ⟨⟨rfl, rfl, rfl⟩, h2⟩ := h
    exact .inr ⟨_, rfl, .found h2 w now [] [] (by simp [hc]) .nil⟩
  case gpOwner x p' fs' c' hp hc =>
    obtain rfl := here rfl; rw [hp] at h'
    left; rw [go_pc, upd_self]; exact h'
  case gpStore x p' fs' c' hp hc =>
    obtain rfl := here rfl; rw [hp] at h'
    left; rw [go_pc, upd_self]; exact h'
  case gpSet x p' fs' c' hp =>
    obtain rfl := here rfl; rw [hp] at h h'
    left; rw [go_pc, upd_self]
    obtain ⟨⟨rfl, rfl, rfl⟩, h2⟩ := h
    exact ⟨⟨rfl, rfl, rfl⟩, h2.later, w, [], [], by simp [now], by simp, .nil, rfl⟩
  case gpBusy x p' fs' c' i l retry out hp =>
    obtain rfl := here rfl; rw [hp] at h'
    left; rw [go_pc, upd_self]
    obtain ⟨h1, h2, v, done, parts, h3, h4, h5, h6⟩ := h'
    exact ⟨h1, h2, v, done, parts, h3, by simpa using h4, h5, h6⟩
  case gpAgain x p' fs' c' retry out hp =>
    obtain rfl := here rfl; rw [hp] at h'
    left; rw [go_pc, upd_self]
    obtain ⟨h1, h2, v, done, parts, h3, h4, h5, h6⟩ := h'
    exact ⟨h1, h2, v, done, parts, h3, by simpa using h4, h5, h6⟩
  case gpReturn x p' fs' c' out hp =>
    obtain rfl := here rfl; rw [hp] at h
    obtain ⟨⟨rfl, rfl, rfl⟩, h2, v, done, parts, h3, h4, h5, rfl⟩ := h
    exact .inr ⟨_, rfl, .found h2 v h3 done parts (by simpa using h4) h5⟩
  all_goals
    first
    | (obtain rfl := here rfl; rename_i hp; rw [hp] at h; exact h.elim)
    | (obtain rfl := here rfl; rename_i hp _; rw [hp] at h; exact h.elim)
    | (obtain rfl := here rfl; rename_i hp _ _; rw [hp] at h; exact h.elim)
    | (obtain rfl := here rfl; rename_i hp _ _ _; rw [hp] at h; exact h.elim)

/-- A query from its beginning to its end. -/
theorem gpa_during {E : Env} {t : Nat} {p : Pubkey} {fs : Option (List AccountFilterType)} {c : Commitment} {vs : List World}
    {r : Reply} (h : Performed E t (.gpa p fs c) vs r) : QueryAnswer E vs p fs c r := by
  obtain ⟨w0, w1, w, w', hr, hcall, hl1, h, hn, hret, hl⟩ := h
  have hr1 : Reachable E w1 := Steps.reachable hr (.tail (.refl _) hcall)
  have hp1 : w1.pc t = .gpContains p fs c := by
    obtain ⟨-, key, hg⟩ := reachable_good hr
    rcases logStep hcall hg with ⟨h, -, -⟩ | ⟨x, k, h, hp⟩ | ⟨x, r, h, -, -, -⟩
    · rw [h] at hl1; simpa using congrArg List.length hl1
    · rw [h] at hl1; simp at hl1; obtain ⟨rfl, rfl⟩ := hl1; rw [hp, upd_self]; rfl
    · rw [h] at hl1; simp at hl1
  have main : ∀ {us v}, Trace E w1 us v → (∀ l, v.log = w1.log ++ l → ∀ e ∈ l, e.1 ≠ t) → GpaOK E us p fs c (v.pc t) := by
    intro us v hv
    induction hv with
    | refl => intro _; rw [hp1]; exact ⟨rfl, rfl, rfl⟩
    | @tail us v v' hv hs ih =>
      intro hn
      obtain ⟨l, hlv⟩ := steps_log hr1 hv.steps
      obtain ⟨m, hm⟩ := steps_log (Steps.reachable hr1 hv.steps) (.tail (.refl _) hs)
      have hnv : ∀ l, v.log = w1.log ++ l → ∀ e ∈ l, e.1 ≠ t := by
        intro l hl e he
        exact hn (l ++ m) (by rw [hm, hl, List.append_assoc]) e (by simp [he])
      obtain ⟨-, key, hg⟩ := reachable_good (Steps.reachable hr1 hv.steps)
      rcases gpa_step hv.last hs hg (ih hnv) with h | ⟨r, h, -⟩
      · exact h
      · exact (hn (l ++ [(t, .ret r)]) (by rw [h, hlv, List.append_assoc]) (t, .ret r) (by simp) rfl).elim
  obtain ⟨-, key, hg⟩ := reachable_good (Steps.reachable hr1 h.steps)
  rcases gpa_step h.last hret hg (main h hn) with hq | ⟨r', h', hq⟩
  · exfalso
    rcases logStep hret hg with ⟨e, -, -⟩ | ⟨x, k, e, -⟩ | ⟨x, r', e, hp, -, -⟩
    · rw [e] at hl; simpa using congrArg List.length hl
    · rw [e] at hl; simp at hl
    · rw [e] at hl; simp at hl; obtain ⟨rfl, -⟩ := hl; rw [hp, upd_self] at hq; exact hq
  · rw [h'] at hl; simp at hl; exact hl ▸ hq

/-- Without a writing call, the store stays as it is. -/
theorem quiet_store {E : Env} {w1 w : World} {vs : List World} (hr : Reachable E w1) (h : Trace E w1 vs w)
    (hq : ∀ v ∈ vs, NoWriter v) : ∀ v ∈ vs, v.st = w1.st := by
  induction h with
  | refl => intro v hv; simp at hv; rw [hv]
  | @tail vs w w' h hs ih =>
    have ih := ih fun v hv => hq v (by simp [hv])
    intro v hv
    rcases List.mem_append.1 hv with hv | hv
    · exact ih v hv
    simp at hv
    subst hv
    have hrv := Steps.reachable hr h.steps
    have hvst := ih w h.last
    have hm := noWriter_of hrv (hq w (by simp [h.last]))
    obtain ⟨-, key, hg⟩ := reachable_good hrv
    rcases effect hs hg with ⟨F, e⟩ | ⟨t, k, -, e⟩ | ⟨t, ht, -⟩ | ⟨t, p, -, -, e, -⟩ | ⟨t, r, -, -, e, -⟩
    · rw [e]; exact hvst
    · rw [e]; exact hvst
    · rw [hm t] at ht; cases ht
    · rw [e]; exact hvst
    · rw [e]; exact hvst

/-- All contributions at the same time. -/
theorem pass_of_parts {X : Codecs} {s : Store} {c : Commitment} {p : Pubkey} {fs : Option (List AccountFilterType)} {is : List Nat}
    {parts : List (List AccountData)} (h : List.Forall₂ (fun i part => ∃ e, s.accounts[i]? = some e ∧ gpaOne X e c p fs = .ok part) is parts) :
    gpaPass X s c p fs is = .ok parts.flatten := by
  induction h with
  | nil => rfl
  | cons h _ ih =>
    obtain ⟨e, h1, h2⟩ := h
    exact gpaPass_cons_ok.2 ⟨e, _, _, h1, h2, ih, rfl⟩

theorem forall₂_right {α β : Type} {R : α → β → Prop} {l : List α} {m : List β} (h : List.Forall₂ R l m) {b : β} (hb : b ∈ m) :
    ∃ a ∈ l, R a b := by
  induction h with
  | nil => simp at hb
  | cons h _ ih =>
    rcases List.mem_cons.1 hb with rfl | hb
    · exact ⟨_, by simp, h⟩
    · obtain ⟨a, ha, h⟩ := ih hb; exact ⟨a, by simp [ha], h⟩

theorem forall₂_left {α β : Type} {R : α → β → Prop} {l : List α} {m : List β} (h : List.Forall₂ R l m) {a : α} (ha : a ∈ l) :
    ∃ b ∈ m, R a b := by
  induction h with
  | nil => simp at ha
  | cons h _ ih =>
    rcases List.mem_cons.1 ha with rfl | ha
    · exact ⟨_, by simp, h⟩
    · obtain ⟨b, hb, h⟩ := ih ha; exact ⟨b, by simp [hb], h⟩

/-- An account that never leaves the index keeps its place. -/
theorem trace_index {E : Env} {w1 w : World} {vs : List World} (hr : Reachable E w1) (h : Trace E w1 vs w) {pk : Pubkey} {i : Nat}
    (hi : w1.st.index pk = some i) (hs : ∀ v ∈ vs, v.st.index pk ≠ none) : ∀ v ∈ vs, v.st.index pk = some i := by
  induction h with
  | refl => intro v hv; simp at hv; subst hv; exact hi
  | @tail vs w w' h hs' ih =>
    have ih := ih fun v hv => hs v (by simp [hv])
    intro v hv
    rcases List.mem_append.1 hv with hv | hv
    · exact ih v hv
    simp at hv
    subst hv
    obtain ⟨-, key, hg⟩ := reachable_good (Steps.reachable hr h.steps)
    rcases step_index hs' hg pk i (ih w h.last) with h | h
    · exact h
    · exact (hs v (by simp) h).elim

theorem Trace.first {E : Env} {w1 w : World} {vs : List World} (h : Trace E w1 vs w) : w1 ∈ vs := by
  induction h with
  | refl => simp
  | tail _ _ ih => simp [ih]

theorem performed_index {E : Env} {t : Nat} {k : Call} {vs : List World} {r : Reply} (h : Performed E t k vs r) {pk : Pubkey}
    (hs : ∀ v ∈ vs, v.st.index pk ≠ none) : ∃ i, ∀ v ∈ vs, v.st.index pk = some i := by
  obtain ⟨w0, w1, w, w', hr, hcall, -, h, -⟩ := h
  have hr1 : Reachable E w1 := Steps.reachable hr (.tail (.refl _) hcall)
  cases hi : w1.st.index pk with
  | none => exact (hs w1 h.first hi).elim
  | some i => exact ⟨i, trace_index hr1 h hi hs⟩

theorem performed_quiet {E : Env} {t : Nat} {k : Call} {vs : List World} {r : Reply} (h : Performed E t k vs r)
    (hq : ∀ v ∈ vs, NoWriter v) : ∃ s, ∀ v ∈ vs, v.st = s := by
  obtain ⟨w0, w1, w, w', hr, hcall, -, h, -⟩ := h
  exact ⟨w1.st, quiet_store (Steps.reachable hr (.tail (.refl _) hcall)) h hq⟩

theorem getAccount_some {s : Store} {pk : Pubkey} {c : Commitment} {i : Nat} {e : ByCommitment} {a : AccountData}
    (hi : s.index pk = some i) (he : s.accounts[i]? = some e) (h : s.getAccount pk c = .ok (some a)) :
    e.get c = some a ∧ 0 < a.account.lamports := by
  rw [getAccount_current (fun j hj => by rw [hi] at hj; cases hj; exact (List.getElem?_eq_some_iff.1 he).1)] at h
  simp only [current, Store.view, hi, he, Option.bind_some, Run.ok.injEq, Option.filter_eq_some_iff, decide_eq_true_eq] at h
  exact h

/-- A pass that meets an account to which the filters cannot be applied does not succeed. -/
theorem pass_blocked {X : Codecs} {s : Store} {c : Commitment} {p : Pubkey} {fs : Option (List AccountFilterType)} {l : List Nat}
    {i : Nat} (hi : i ∈ l) {e : ByCommitment} (he : s.accounts[i]? = some e) (h : ∀ part, gpaOne X e c p fs ≠ .ok part)
    {r : List AccountData} (hr : gpaPass X s c p fs l = .ok r) : False := by
  induction l generalizing r with
  | nil => simp at hi
  | cons j l ih =>
    obtain ⟨e', x, rs, he', hx, hrs, -⟩ := gpaPass_cons_ok.1 hr
    rcases List.mem_cons.1 hi with rfl | hi
    · rw [he] at he'; cases he'; exact h x hx
    · exact ih hi hrs

end LAM.Conc
