import Verif.Spec.StoreConcShards
import Verif.Lemmas.StoreConcCalls
/-!
# Concurrent calls of the in-memory account store: which calls can wait for each other
-/
namespace LAM.Conc
open Store World ByCommitment Spec

theorem OwnerChanged.mono {log log' : List (Nat × Event)} {pk : Pubkey} (h : OwnerChanged log pk) (hl : ∀ e ∈ log, e ∈ log') :
    OwnerChanged log' pk := by
  obtain ⟨a, b, h1, h2, h3⟩ := h
  exact ⟨a, b, h1.mono hl, h2.mono hl, h3⟩

/-- Only accounts that changed their owner are removed by notifications. -/
def Pc.leaves (log : List (Nat × Event)) : Pc → Prop
  | .prUnown _ _ a _ _ _ | .prDrop _ _ a _ _ => OwnerChanged log a.pubkey
  | _ => True

theorem Pc.leaves.mono {log log' : List (Nat × Event)} {p : Pc} (h : p.leaves log) (hl : ∀ e ∈ log, e ∈ log') : p.leaves log' := by
  cases p <;> first
    | trivial
    | exact OwnerChanged.mono h hl

theorem doPromote_leaves {E : Env} {key : Nat → Pubkey} {w : World} (hg : Good E key w) (t : Nat) (c : Commitment) (i slot : Nat)
    (l : Writable) (out : List AccountData) : ∃ p, (doPromote w t c i slot l out).pc = upd w.pc t p ∧ p.leaves w.log := by
  unfold doPromote
  split
  · exact ⟨_, rfl, trivial⟩
  · rename_i e he
    simp only
    split
    · exact ⟨_, rfl, trivial⟩
    · exact ⟨_, rfl, trivial⟩
    · rename_i a prev hr
      split
      · split
        · exact ⟨_, rfl, trivial⟩
        · split
          · rename_i hpk hown
            split
            · refine ⟨_, rfl, prev, a, ?_, ?_, Decidable.not_not.1 hpk, rfl, hown⟩
              all_goals
                obtain ⟨-, hf, hpr, -⟩ := (promote_result _ _ _ _ _).1 hr
                rcases hg.entry i e he with rfl | ⟨h1, h2⟩
                · rw [promote_dead] at hr; cases hr
                · first
                  | exact h2.get h1 hpr.symm
                  | exact h2.1 _ _ hf
            · exact ⟨_, rfl, trivial⟩
          · exact ⟨_, rfl, trivial⟩
      · exact ⟨_, rfl, trivial⟩

theorem step_leaves {E : Env} {key : Nat → Pubkey} {w w' : World} (h : Step E w w') (hg : Good E key w) (hl : ∀ t, (w.pc t).leaves w.log)
    (t : Nat) : (w'.pc t).leaves w'.log := by
  have hlog : ∀ e ∈ w.log, e ∈ w'.log := by
    rcases logStep h hg with ⟨hl, -, -⟩ | ⟨x, k, hl, -⟩ | ⟨x, r, hl, -, -, -⟩ <;> rw [hl]
    · exact fun e h => h
    · exact fun e h => List.mem_append_left _ h
    · exact fun e h => List.mem_append_left _ h
  have move : ∀ x p, w'.pc = upd w.pc x p → p.leaves w.log → (w'.pc t).leaves w'.log := by
    intro x p hpc hp
    rw [hpc]
    by_cases hx : t = x
    · subst hx; rw [upd_self]; exact hp.mono hlog
    · rw [upd_other hx]; exact (hl t).mono hlog
  cases h
  case env => exact hl t
  case call x k hp => exact move x _ rfl (by cases k <;> trivial)
  case upWrite x a c i hp =>
    rcases doWrite_pc w x a c i with ⟨_, _, h⟩ | ⟨_, _, _, h⟩ | ⟨_, h⟩ <;> exact move x _ (congrArg World.pc h) trivial
  case prPromote x c i slot l out hp =>
    obtain ⟨p, h1, h2⟩ := doPromote_leaves hg x c i slot l out
    exact move x p h1 h2
  case geRead x _ c i hp _ =>
    obtain ⟨_, h⟩ := doRead_pc w x c i
    exact move x _ (congrArg World.pc h) trivial
  case gpVisit x p fs c i l retry out hp _ =>
    rcases doVisit_pc E w x p fs c i (fun r => .gpScan p fs c l retry (out ++ r)) with ⟨_, h⟩ | ⟨_, h⟩ <;>
      exact move x _ (congrArg World.pc h) trivial
  case gpRetry x p fs c i l out hp _ =>
    rcases doVisit_pc E w x p fs c i (fun r => .gpRetry p fs c l (out ++ r)) with ⟨_, h⟩ | ⟨_, h⟩ <;>
      exact move x _ (congrArg World.pc h) trivial
  case upUnown x a prev i hp => exact move x _ rfl (by split <;> trivial)
  case prUnown x c i a prev l out hp =>
    have := hl x
    rw [hp] at this
    exact move x _ rfl (by split; exact this; trivial)
  all_goals exact move _ _ rfl trivial

theorem reachable_leaves {E : Env} {w : World} (h : Reachable E w) : ∀ t, (w.pc t).leaves w.log := by
  obtain ⟨F, h⟩ := h
  induction h with
  | refl => intro t; trivial
  | tail hs' hs ih =>
    obtain ⟨-, key, hg⟩ := reachable_good ⟨F, hs'⟩
    exact step_leaves hs hg ih

theorem separateShards_free {E : Env} {w : World} (hr : Reachable E w) (h : SeparateShards E w) : DropsFree E w := by
  intro t c i a l out hp t' pk hs
  have hl := reachable_log hr
  obtain ⟨k, hk, hc⟩ := hl.opened t (by rw [hp]; simp)
  obtain ⟨info, rfl⟩ := serves_finalizes hk (reachable_late hr t) (by rw [hp]; rfl)
  have hch := reachable_leaves hr t
  rw [hp] at hch
  obtain ⟨k', hk', hc'⟩ := hl.opened t' (by intro h; rw [h] at hs; cases hs)
  have : ∃ b d, b.pubkey = pk ∧ k' = .update b d := by
    cases hp' : w.pc t' <;> rw [hp'] at hs hk' <;> simp only [Pc.shard, Option.some.injEq, reduceCtorEq] at hs <;>
      obtain ⟨d, rfl⟩ := hk' <;> exact ⟨_, d, hs, rfl⟩
  obtain ⟨b, d, rfl, rfl⟩ := this
  exact h t' t b d info a.pubkey hc' hc hch

/-- Threads make calls when they are not in one. -/
theorem call_idle {E : Env} {w w' : World} {x : Nat} {k : Call} (hs : Step E w w') (hl : w'.log = w.log ++ [(x, .call k)]) :
    w.pc x = .idle := by
  have nogo : ∀ {t : Nat} {s : Store} {p : Pc}, w' = w.go t s p → w.pc x = .idle := fun h => by subst h; simp at hl
  have noret : ∀ {t : Nat} {s : Store} {r : Reply}, w' = w.ret t s r → w.pc x = .idle := fun h => by subst h; simp [World.ret] at hl
  cases hs
  case env => simp at hl
  case call y k' hp => simp at hl; obtain ⟨rfl, -⟩ := hl; exact hp
  case upWrite y a c i hp =>
    rcases doWrite_pc w y a c i with ⟨_, _, h⟩ | ⟨_, _, _, h⟩ | ⟨_, h⟩ <;> first | exact nogo h | exact noret h
  case prPromote y c i slot l out hp =>
    rcases doPromote_pc w y c i slot l out with ⟨_, _, h⟩ | ⟨_, _, h⟩ | ⟨_, _, _, _, h⟩ | ⟨_, _, h⟩ <;> first | exact nogo h | exact noret h
  case geRead y _ c i hp _ =>
    obtain ⟨_, h⟩ := doRead_pc w y c i
    exact noret h
  case gpVisit y p fs c i l retry out hp _ =>
    rcases doVisit_pc E w y p fs c i (fun r => .gpScan p fs c l retry (out ++ r)) with ⟨_, h⟩ | ⟨_, h⟩ <;> first | exact nogo h | exact noret h
  case gpRetry y p fs c i l out hp _ =>
    rcases doVisit_pc E w y p fs c i (fun r => .gpRetry p fs c l (out ++ r)) with ⟨_, h⟩ | ⟨_, h⟩ <;> first | exact nogo h | exact noret h
  all_goals first
    | exact nogo rfl
    | exact noret rfl

theorem separateShards_kept (E : Env) : KeptByMoves E (fun w => Reachable E w ∧ SeparateShards E w) := by
  rintro w w' t p ⟨hr, h⟩ hs hne hpc - -
  refine ⟨Steps.reachable hr (.tail (.refl _) hs), ?_⟩
  obtain ⟨-, key, hg⟩ := reachable_good hr
  rcases logStep hs hg with ⟨hl, -, -⟩ | ⟨x, k, hl, hp⟩ | ⟨x, r, hl, -, -, -⟩
  · unfold SeparateShards; rw [hl]; exact h
  · exfalso
    have hx : w.pc x = .idle := call_idle hs hl
    rw [hpc] at hp
    have := congrFun hp x
    rw [upd_self] at this
    by_cases e : x = t
    · subst e; exact hne hx
    · rw [upd_other e, hx] at this
      cases k <;> cases this
  · have hsub : ∀ a, Submitted w'.log a → Submitted w.log a := by
      rintro a ⟨y, c, hm⟩
      rw [hl] at hm
      rcases List.mem_append.1 hm with hm | hm
      · exact ⟨y, c, hm⟩
      · simp at hm
    have hlast : ∀ y k, LastCall w'.log y k → LastCall w.log y k := by
      intro y k hc
      rw [hl] at hc
      rcases hc.of_snoc with ⟨-, h⟩ | ⟨-, h⟩
      · cases h
      · exact h
    rintro y y' a c info pk h1 h2 ⟨b, b', h3, h4, h5⟩
    exact h y y' a c info pk (hlast _ _ h1) (hlast _ _ h2) ⟨b, b', hsub b h3, hsub b' h4, h5⟩

theorem calls_return_shards {E : Env} {w : World} (hr : Reachable E w) (h : SeparateShards E w) :
    ∃ w', Steps E w w' ∧ ∀ t, w'.pc t = .idle := by
  obtain ⟨N, hN⟩ := finite_threads hr
  exact all_return (fun _ h => separateShards_free h.1 h.2) (separateShards_kept E) N _ _ w ⟨hr, h⟩ hN rfl rfl

end LAM.Conc
