import Verif.Lemmas.TokenConcDue
import Verif.Spec.TokenConcOnce
/-!
# Concurrent calls of the token program store: no update is reported as finalized more often than it was submitted
-/
namespace LAM.TokConc
open Token Run Spec ProcStore

theorem finalReports_snoc (e : Nat × Event) : ∀ (log pre : List (Nat × Event)),
    finalReports pre (log ++ [e]) = finalReports pre log ++ finalReport (pre ++ log) e
  | [], pre => by simp [finalReports]
  | d :: log, pre => by
    rw [List.cons_append, finalReports, finalReports_snoc e log, finalReports]
    simp

theorem finalReports_append : ∀ (log log' pre : List (Nat × Event)),
    finalReports pre (log ++ log') = finalReports pre log ++ finalReports (pre ++ log) log'
  | [], log', pre => by simp [finalReports]
  | d :: log, log', pre => by
    rw [List.cons_append, finalReports, finalReports_append log log', finalReports]
    simp

theorem lastOf_lastCall {log : List (Nat × Event)} {t : Nat} {k : Call} (h : LastCall log t k) : lastOf log t = some (.call k) := by
  obtain ⟨pre, mid, rfl, h2⟩ := h
  have h3 : mid.filter (fun e => decide (e.1 = t)) = [] := by
    rw [List.filter_eq_nil_iff]
    intro e he
    simpa using h2 e he
  simp [lastOf, h3]

/-! ## Where the states are -/

variable (pk : Pubkey) (slot wv : Nat)

/-- States of this kind among what is to be converted. -/
def Item.isState : Item → Bool
  | .conv x k v => x.pubkey = pk ∧ k = slot ∧ v = wv
  | .keep a => IsState pk slot wv a

/-- How many states of this kind a reply reports. -/
def Reply.states : Reply → Nat
  | .reported l => l.countP (IsState pk slot wv)
  | _ => 0

/-- How many states of this kind a thread has that are still to be stored or to be reported as finalized. -/
def Pc.states : Pc → Nat
  | .chkIndex a c | .chkMultisig a c | .chkBucket a c | .chkAccounts a c | .classify a c =>
    if (c = some .processed ∨ c = some .confirmed) ∧ IsState pk slot wv a then 1 else 0
  | .insert a _ => if IsState pk slot wv a then 1 else 0
  | .convert items out (.finalized _) => items.countP (Item.isState pk slot wv) + out.countP (IsState pk slot wv)
  | .add _ k | .save _ k | .pushMint _ _ k | .pushOwner _ _ k | .putMint _ _ _ k | .eraseMint _ k | .eraseByMint _ k | .again _ k
  | .dropBucket _ k | .entomb _ _ k => k.reply.states pk slot wv
  | _ => 0

/-- Whether the state is stored. -/
def storedState (s : TokenStore) : Nat := if (stateAt s.processed slot pk).any (fun x => x.wv = wv) then 1 else 0

/-- How many states of this kind the first threads have. -/
def statesOf (pc : Nat → Pc) : Nat → Nat
  | 0 => 0
  | n + 1 => statesOf pc n + (pc n).states pk slot wv

def Next.states : Next → Nat
  | .go p => p.states pk slot wv
  | .ret r => r.states pk slot wv

variable {pk slot wv}

theorem statesOf_out {pc : Nat → Pc} {t : Nat} {p : Pc} : ∀ n, n ≤ t → statesOf pk slot wv (upd pc t p) n = statesOf pk slot wv pc n
  | 0, _ => rfl
  | n + 1, h => by
    simp only [statesOf]
    rw [statesOf_out n (by omega), upd_other (show n ≠ t by omega)]

theorem statesOf_in {pc : Nat → Pc} {t : Nat} {p : Pc} : ∀ n, t < n →
    statesOf pk slot wv (upd pc t p) n + (pc t).states pk slot wv = statesOf pk slot wv pc n + p.states pk slot wv
  | 0, h => absurd h (by omega)
  | n + 1, h => by
    rw [statesOf, statesOf]
    by_cases e : t = n
    · subst e
      rw [statesOf_out t (le_refl _), upd_self]
      omega
    · have := statesOf_in (pc := pc) (t := t) (p := p) n (by omega)
      rw [upd_other (show n ≠ t by omega)]
      omega

theorem statesOf_idle {pc : Nat → Pc} {N : Nat} (h : ∀ t, N ≤ t → pc t = .idle) : ∀ n, N ≤ n →
    statesOf pk slot wv pc n = statesOf pk slot wv pc N
  | 0, hn => by have : N = 0 := by omega
                rw [this]
  | n + 1, hn => by
    by_cases e : N = n + 1
    · rw [e]
    · rw [statesOf, statesOf_idle h n (by omega), h n (by omega)]
      rfl

/-! ## Steps -/

theorem toSolana_key {x : ProgramAccount} {mints : AMap Nat MintAccount} {k v : Nat} {b : AccountData}
    (h : x.toSolana mints k v = .ok (some b)) : b.pubkey = x.pubkey ∧ b.slot = k ∧ b.wv = v := by
  cases x with
  | token t =>
    simp only [ProgramAccount.toSolana, tokenToSolana] at h
    split at h
    · simp at h
    · cases hm : mints.find t.mint with
      | none => simp [hm, Run.unwrap] at h
      | some m =>
        simp only [hm, Run.unwrap, Run.ok_bind, Run.pure_eq, Run.ok.injEq, Option.some.injEq] at h
        subst h
        exact ⟨rfl, rfl, rfl⟩
  | mint m =>
    simp only [ProgramAccount.toSolana, Run.ok.injEq, Option.some.injEq] at h
    subst h
    exact ⟨rfl, rfl, rfl⟩
  | multisig m pk =>
    simp only [ProgramAccount.toSolana, multisigToSolana] at h
    cases hm : multisigBytes m <;> simp [hm] at h
    subst h
    exact ⟨rfl, rfl, rfl⟩
  | deleted pk => simp [ProgramAccount.toSolana] at h

theorem after_states (k : After) : k.next.states pk slot wv = k.reply.states pk slot wv := by
  unfold After.next
  split <;> rfl

theorem scan_states {r : Answers} {j : Scan} {n : Next} (h : j.next r = .ok n) : n.states pk slot wv = 0 := by
  cases j with
  | one pk =>
    simp only [Scan.next, Run.bind_eq_ok] at h
    obtain ⟨o, -, h⟩ := h
    split at h <;> simp only [Run.pure_eq, Run.ok.injEq] at h <;> subst h <;> rfl
  | overlay l =>
    simp only [Scan.next, Run.ok.injEq] at h
    subst h
    rfl

theorem newest_onChain {P : ProcStore} {pk : Pubkey} {n k : Nat} {x : Processed} (h : NewestOn P pk n x k) : OnChain P n k := by
  induction h with
  | here h1 h2 => exact .here h1
  | up h1 h2 h3 _ ih => exact .up h1 h3 ih

theorem count_le_one {l : List (Processed × Nat)} (h : (l.map (fun e => e.1.account.pubkey)).Nodup) :
    (l.map (fun x => Item.conv x.1.account x.2 x.1.wv)).countP (Item.isState pk slot wv) ≤ 1 := by
  induction l with
  | nil => simp
  | cons d l ih =>
    rw [List.map_cons, List.nodup_cons] at h
    rw [List.map_cons, List.countP_cons]
    split
    · rename_i hd
      have : (l.map (fun x => Item.conv x.1.account x.2 x.1.wv)).countP (Item.isState pk slot wv) = 0 := by
        rw [List.countP_eq_zero]
        intro i hi hs
        obtain ⟨e, he, rfl⟩ := List.mem_map.1 hi
        simp only [Item.isState, decide_eq_true_eq] at hd hs
        exact h.1 (List.mem_map.2 ⟨e, he, hs.1.trans hd.1.symm⟩)
      omega
    · have := ih h.2
      omega

theorem ite_le_one (c : Prop) [Decidable c] : (if c then 1 else 0) ≤ 1 := by split <;> omega

/-- No step makes states. -/
theorem out_count {E : Env} {log : List (Nat × Event)} {g : List Pubkey} {σ : Orders} {s s' : TokenStore} {p : Pc} {n : Next}
    (hs : StoreOK E.codecs log g s) (h : Out E σ s p s' n) :
    (∃ out, p = .convert [] out .confirmed ∧ s' = s) ∨
      storedState pk slot wv s' + n.states pk slot wv ≤ storedState pk slot wv s + p.states pk slot wv := by
  cases h
  case insert a x =>
    refine .inr ?_
    show _ + 0 ≤ _ + ite _ _ _
    unfold storedState
    simp only [stateAt_insertAccount]
    by_cases hk : a.slot = slot ∧ a.pubkey = pk
    · obtain ⟨rfl, rfl⟩ := hk
      by_cases hw : a.wv = wv
      · have : IsState a.pubkey a.slot wv a = true := by simp [IsState, hw]
        simp only [this, if_true, Nat.add_zero]
        exact Nat.le_trans (ite_le_one _) (Nat.le_add_left _ _)
      · simp only [and_self, if_true]
        split
        · rename_i old ho
          split
          · simp [hw]
          · simp [ho]
        · simp [hw]
    · simp only [hk, if_false]
      omega
  case classifyI a c x T h1 h2 =>
    refine .inr ?_
    show _ + ite _ _ _ ≤ _ + ite _ _ _
    simp only [h2, true_and]
    exact le_refl _
  case psProcessed info => exact .inr (by simp [storedState, stateAt_updateSlotInfo, Next.states, Reply.states])
  case updateFinal info => exact .inr (by simp [storedState, stateAt_updateSlotInfo, Next.states, Pc.states])
  case update info c hc => exact .inr (by simp [storedState, stateAt_updateSlotInfo, Next.states, Pc.states])
  case missing info => exact .inr (by simp [storedState, stateAt_updateSlotInfo, Next.states, Reply.states])
  case report => exact .inr (by simp [Next.states, Pc.states])
  case finalize info P l hf =>
    refine .inr ?_
    obtain ⟨P', l', h1, h2, -, h3, h4, h5⟩ := finalize_spec hs.proc info.slot
    rw [hf] at h1
    simp only [Run.ok.injEq, Prod.mk.injEq] at h1
    obtain ⟨rfl, rfl⟩ := h1
    have hp : ((σ.final l).map (fun x => Item.conv x.1.account x.2 x.1.wv)).countP (Item.isState pk slot wv) =
        (l.map (fun x => Item.conv x.1.account x.2 x.1.wv)).countP (Item.isState pk slot wv) :=
      ((σ.final_perm l).map _).countP_eq _
    show _ + (List.countP _ _ + List.countP _ []) ≤ _ + 0
    rw [hp, List.countP_nil]
    by_cases hc : (l.map (fun x => Item.conv x.1.account x.2 x.1.wv)).countP (Item.isState pk slot wv) = 0
    · rw [hc]
      unfold storedState stateAt
      by_cases hk : slot ≤ info.slot ∨ OnChain s.processed info.slot slot
      · simp [(h5 slot).1 hk]
      · simp [(h5 slot).2 hk]
    · have h6 := count_le_one (pk := pk) (slot := slot) (wv := wv) h4
      obtain ⟨i, hi, hk⟩ := List.countP_pos_iff.1 (Nat.pos_of_ne_zero hc)
      obtain ⟨⟨x, k⟩, hx, rfl⟩ := List.mem_map.1 hi
      simp only [Item.isState, decide_eq_true_eq] at hk
      obtain ⟨rfl, rfl, rfl⟩ := hk
      have hn := (h3 x k).1 hx
      obtain ⟨e, he, hx⟩ := newest_mem hn
      have e1 : storedState x.account.pubkey k x.wv { s with processed := P } = 0 := by
        simp [storedState, stateAt, (h5 k).1 (.inr (newest_onChain hn))]
      have e2 : storedState x.account.pubkey k x.wv s = 1 := by
        simp [storedState, stateAt, he, hx]
      omega
  case convertEnd out j =>
    cases j with
    | confirmed => exact .inl ⟨out, rfl, rfl⟩
    | finalized l =>
      refine .inr ?_
      show _ + (After.next _).states pk slot wv ≤ _ + (0 + out.countP _)
      rw [after_states]
      simp [Reply.states]
    | one => exact .inr (by simp [Next.states, Reply.states, Job.next])
    | overlay => exact .inr (by simp [Next.states, Reply.states, Job.next])
    | found q mi =>
      refine .inr ?_
      simp only [Job.next]
      split <;> simp [Next.states, Reply.states, Pc.states]
  case keep b l out j =>
    cases j <;> refine .inr ?_ <;> simp only [Next.states, Pc.states]
    case finalized =>
      have : Item.isState pk slot wv (.keep b) = IsState pk slot wv b := rfl
      simp only [List.countP_cons, List.countP_append, List.countP_nil, this]
      omega
    all_goals omega
  case conv x k v l out j r hr =>
    cases j <;> refine .inr ?_ <;> simp only [Next.states, Pc.states]
    case finalized =>
      cases r with
      | none => simp only [Option.toList, List.append_nil, List.countP_cons]; omega
      | some b =>
        obtain ⟨e1, e2, e3⟩ := toSolana_key hr
        have : Item.isState pk slot wv (.conv x k v) = IsState pk slot wv b := by simp [Item.isState, IsState, e1, e2, e3]
        simp only [List.countP_cons, List.countP_append, List.countP_nil, Option.toList, this]
        omega
    all_goals omega
  case scanConfirmed m j r hf hj => exact .inr (by rw [scan_states hj]; exact Nat.le_add_right _ _)
  case scanDone m j r hf hj => exact .inr (by rw [scan_states hj]; exact Nat.le_add_right _ _)
  case rescan m ret j r hf hj => exact .inr (by rw [scan_states hj]; exact Nat.le_add_right _ _)
  all_goals refine .inr ?_
  all_goals first
    | exact le_refl _
    | (rw [after_states]; exact le_refl _)
    | (refine Nat.add_le_add (le_refl (storedState pk slot wv s)) ?_; simp [Next.states, Pc.states, Reply.states])

/-! ## Executions -/

/-- The states that were submitted are still to be stored, stored, or reported, or were reported, or are gone. -/
def Counted (pk : Pubkey) (slot wv : Nat) (w : World) : Prop :=
  ∃ N, (∀ t, N ≤ t → w.pc t = .idle) ∧
    (finalReports [] w.log).countP (IsState pk slot wv) + storedState pk slot wv w.st + statesOf pk slot wv w.pc N ≤
      submissions pk slot wv w.log

theorem submissions_snoc (log : List (Nat × Event)) (e : Nat × Event) :
    submissions pk slot wv log ≤ submissions pk slot wv (log ++ [e]) := by
  simp [submissions]

theorem counted_step {E : Env} {w w' : World} (reach : Reachable E w) (hs : Step E w w') {g : List Pubkey} (hinv : InvAt E w g)
    (hd : Counted pk slot wv w) : Counted pk slot wv w' := by
  obtain ⟨-, -, -, hst, hsv, -⟩ := hinv
  obtain ⟨N, hN, hc⟩ := hd
  cases hs with
  | work hwk =>
    obtain ⟨t, hi, -, h⟩ := work_cases hwk
    obtain ⟨k, hk⟩ := (busy_iff reach t).1 (active_ne hi)
    have hv : Serves E.codecs w.log g w.st.tokens.accounts.length k (w.pc t) := by
      rcases hsv t k hk with h | ⟨l, h⟩
      · exact h
      · rw [h] at hi; exact hi.elim
    have htN : t < N := by
      by_contra hn
      rw [hN t (by omega)] at hi
      exact hi.elim
    have put : ∀ p u, N ≤ u → upd w.pc t p u = .idle := fun p u hu => by
      rw [upd_other (show u ≠ t by omega)]; exact hN u hu
    -- the end of a call
    have ret : ∀ s r, storedState pk slot wv s + (finalReport w.log (t, .ret r)).countP (IsState pk slot wv) ≤
          storedState pk slot wv w.st + (w.pc t).states pk slot wv →
        Counted pk slot wv { st := s, pc := upd w.pc t .idle, log := w.log ++ [(t, .ret r)] } := by
      intro s r h1
      refine ⟨N, put _, ?_⟩
      have h2 := statesOf_in (pk := pk) (slot := slot) (wv := wv) (pc := w.pc) (t := t) (p := .idle) N htN
      have h3 : Pc.states pk slot wv .idle = 0 := rfl
      have h4 := submissions_snoc (pk := pk) (slot := slot) (wv := wv) w.log (t, .ret r)
      show (finalReports [] (w.log ++ [(t, .ret r)])).countP _ + storedState pk slot wv s + statesOf pk slot wv (upd w.pc t .idle) N ≤
        submissions pk slot wv (w.log ++ [(t, .ret r)])
      rw [finalReports_snoc, List.countP_append, List.nil_append]
      omega
    have report : ∀ r, (finalReport w.log (t, .ret r)).countP (IsState pk slot wv) ≤ r.states pk slot wv := by
      intro r
      cases r with
      | reported l =>
        simp only [finalReport, Reply.states]
        split
        · exact le_refl _
        · simp
      | _ => simp [finalReport]
    rcases h with ⟨σ, s, p, ho, rfl, -⟩ | ⟨σ, s, r, ho, rfl⟩ | ⟨σ, hp, rfl⟩ | ⟨σ, hp, rfl⟩
    · refine ⟨N, put _, ?_⟩
      have h2 := statesOf_in (pk := pk) (slot := slot) (wv := wv) (pc := w.pc) (t := t) (p := p) N htN
      show (finalReports [] w.log).countP _ + storedState pk slot wv s + statesOf pk slot wv (upd w.pc t p) N ≤ submissions pk slot wv w.log
      rcases out_count (pk := pk) (slot := slot) (wv := wv) hst ho with ⟨out, h3, -⟩ | h3
      · rw [h3] at ho
        cases ho
      · have h4 : (Next.go p).states pk slot wv = p.states pk slot wv := rfl
        omega
    · refine ret s r ?_
      rcases out_count (pk := pk) (slot := slot) (wv := wv) hst ho with ⟨out, h3, rfl⟩ | h3
      · rw [h3] at hv ho
        have h4 : (finalReport w.log (t, .ret r)).countP (IsState pk slot wv) = 0 := by
          cases hv with
          | convert h5 =>
            cases k <;> try exact h5.elim
            have h5 : _ = Commitment.confirmed := h5
            subst h5
            cases r <;> simp [finalReport, lastOf_lastCall hk]
        omega
      · have h4 : (Next.ret r).states pk slot wv = r.states pk slot wv := rfl
        have := report r
        omega
    · exact ret w.st .panicked (by simp [finalReport])
    · refine ⟨N, put _, ?_⟩
      have h2 := statesOf_in (pk := pk) (slot := slot) (wv := wv) (pc := w.pc) (t := t)
        (p := .loops ((w.pc t).holds E ++ ((w.pc t).wants E).toList)) N htN
      have h3 : ∀ l, (Pc.loops l).states pk slot wv = 0 := fun _ => rfl
      rw [h3] at h2
      show (finalReports [] w.log).countP _ + storedState pk slot wv w.st + statesOf pk slot wv (upd w.pc t _) N ≤ submissions pk slot wv w.log
      omega
  | call t k hi =>
    refine ⟨max N (t + 1), fun u hu => ?_, ?_⟩
    · show upd w.pc t _ u = .idle
      rw [upd_other (show u ≠ t by omega)]; exact hN u (by omega)
    · have h1 := statesOf_in (pk := pk) (slot := slot) (wv := wv) (pc := w.pc) (t := t) (p := k.start) (max N (t + 1)) (by omega)
      have h2 := statesOf_idle (pk := pk) (slot := slot) (wv := wv) hN (max N (t + 1)) (by omega)
      have h3 : (w.pc t).states pk slot wv = 0 := by rw [hi]; rfl
      have h4 : submissions pk slot wv w.log + k.start.states pk slot wv ≤ submissions pk slot wv (w.log ++ [(t, .call k)]) := by
        cases k with
        | submit a c =>
          rcases c with _ | _ | _ | _ <;> simp [submissions, Call.start, Pc.states, List.countP_cons]
        | get pk c =>
          have := submissions_snoc (pk := pk) (slot := slot) (wv := wv) w.log (t, .call (.get pk c))
          simp only [Call.start]
          split <;> simp [submissions, Pc.states]
        | process info c => simp [submissions, Call.start, Pc.states]
        | gpa p fs c => simp [submissions, Call.start, Pc.states]
      show (finalReports [] (w.log ++ [(t, .call k)])).countP _ + storedState pk slot wv w.st +
        statesOf pk slot wv (upd w.pc t k.start) (max N (t + 1)) ≤ submissions pk slot wv (w.log ++ [(t, .call k)])
      rw [finalReports_snoc, List.countP_append]
      have h5 : (finalReport ([] ++ w.log) (t, .call k)).countP (IsState pk slot wv) = 0 := by simp [finalReport]
      omega

theorem counted {E : Env} {w : World} (hr : Reachable E w) (hb : submits w.log ≤ 2 ^ 31) : Counted pk slot wv w := by
  induction hr with
  | refl => exact ⟨0, fun _ _ => rfl, by simp [World.init, finalReports, storedState, stateAt, TokenStore.empty, statesOf]⟩
  | @tail w w' hw hs ih =>
    have hb' := Nat.le_trans (step_submits hs) hb
    obtain ⟨g, h1⟩ := inv hw hb'
    exact counted_step hw hs h1 (ih hb')

end LAM.TokConc
