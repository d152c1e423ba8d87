import Verif.Spec.ComposedKept
import Verif.Props.Composed
import Verif.Props.TokenAnswer
import Verif.Props.TokenStream
/-!
# The dispatcher around the token store and the in-memory store: accounts of the token programs: C133
-/
namespace LAM.Props
open Spec Token Composed

/-- **C133**, the full claim: an account that is always submitted as one of a token program is kept out of the default storage. -/
def C133_statement : Prop :=
  ∀ (X : Codecs) (F : Filters) (ops : List SOp) (w : Sys) (pk : Pubkey) (c : Commitment), 2 * ops.length < 2 ^ 31 →
    Sys.run X F ops .empty = .ok w → OfTokenProgram X pk ops → w.main.getAccount pk c = .ok none

theorem sys_run_append {X : Codecs} {F : Filters} (l l' : List SOp) {w : Sys} :
    Sys.run X F (l ++ l') w = (Sys.run X F l w).bind (Sys.run X F l') := by
  induction l generalizing w with
  | nil => rfl
  | cons o l ih =>
    simp only [List.cons_append, Sys.run]
    cases h : w.step X F o with
    | ok w1 => exact ih
    | panic => rfl
    | diverge => rfl

theorem sys_run_snoc {X : Codecs} {F : Filters} {l : List SOp} {o : SOp} {w w' : Sys} (h : Sys.run X F (l ++ [o]) w = .ok w') :
    ∃ w1, Sys.run X F l w = .ok w1 ∧ w1.step X F o = .ok w' := by
  rw [sys_run_append] at h
  cases h1 : Sys.run X F l w with
  | ok w1 =>
    rw [h1] at h
    change Sys.run X F [o] w1 = .ok w' at h
    simp only [Sys.run, Run.bind_eq_ok, Run.ok.injEq] at h
    obtain ⟨w2, h2, rfl⟩ := h
    exact ⟨w1, rfl, h2⟩
  | panic => rw [h1] at h; cases h
  | diverge => rw [h1] at h; cases h

/-- A slot notification adds no states. -/
theorem slot_keeps {n : Nat} {s s' : TokenStore} {slots orig : List TokenAccount} {σ : Orders} {info : SlotInfo} {c : Commitment}
    {notes : List AccountData} (hi : Inv (fun _ => True) n s slots orig) (hn : n < 2 ^ 31 - 1)
    (h : s.processSlot σ info c = .ok (notes, s')) {k : Nat} {pk : Pubkey} {y : Processed}
    (hy : Token.stateAt s'.processed k pk = some y) : Token.stateAt s.processed k pk = some y := by
  by_cases hc : c = .finalized
  · subst hc
    obtain ⟨-, -, -, -, -, hk, -⟩ := finalized_spec hi hn h
    by_cases hd : k ≤ info.slot ∨ OnChain (noted s info s.finalizedSlot) info.slot k
    · simp [Token.stateAt, (hk k).1 hd] at hy
    · simpa [Token.stateAt, (hk k).2 hd] using hy
  · rwa [slot_stateAt hc h] at hy

/-- Parsed accounts of a token program are recognised. -/
theorem parses_token {X : Codecs} {s : TokenStore} {a : AccountData} (h : Parses X a) : s.isTokenAccount a = .ok true := by
  unfold TokenStore.isTokenAccount
  rw [if_pos (by rcases h.1 with h | h <;> simp [h])]

/-- A step of the dispatcher about an account of a token program. -/
theorem kept_step {X : Codecs} {F : Filters} {pk : Pubkey} (ops : List SOp) {w : Sys} (hn : 2 * ops.length < 2 ^ 31)
    (hr : Sys.run X F ops .empty = .ok w) (ht : OfTokenProgram X pk ops) (ho : SentInOrder pk ops) :
    (∀ k y, Token.stateAt w.token.processed k pk = some y → ∃ d ∈ sentAt ops pk k, y.wv = d.wv) ∧
    ∃ h, Store.empty.run h = .ok w.main ∧ ∀ G a c, Op.update G a c ∈ h → a.pubkey ≠ pk := by
  induction ops using List.reverseRecOn generalizing w with
  | nil =>
    simp [Sys.run] at hr; subst hr
    exact ⟨fun k y h => by simp [Token.stateAt, Sys.empty, TokenStore.empty] at h, [], rfl, by simp⟩
  | append_singleton ops o ih =>
    obtain ⟨w1, h1, h2⟩ := sys_run_snoc hr
    simp only [List.length_append, List.length_cons, List.length_nil] at hn
    obtain ⟨slots, orig, hi⟩ := sys_inv ops (w := .empty) (inv_empty _) (by omega) h1
    obtain ⟨ih1, h, ih2, ih3⟩ := ih (by omega) h1 (fun o ho => ht o (by simp [ho]))
      (fun pre a c post e => ho pre a c (post ++ [o]) (by rw [e]; simp))
    have hsent : ∀ k d, d ∈ sentAt ops pk k → d ∈ sentAt (ops ++ [o]) pk k := by
      intro k d h; unfold sentAt; rw [List.filterMap_append, List.mem_append]; exact .inl h
    have old : ∀ k y, Token.stateAt w1.token.processed k pk = some y → ∃ d ∈ sentAt (ops ++ [o]) pk k, y.wv = d.wv := by
      intro k y hy
      obtain ⟨d, hd, e⟩ := ih1 k y hy
      exact ⟨d, hsent k d hd, e⟩
    cases o with
    | update a c =>
      -- what one update of the token store adds
      have one : ∀ (t t' : TokenStore) (b : Bool), t.updateAccount X a c = .ok (b, t') →
          (∀ k y, Token.stateAt t.processed k pk = some y → ∃ d ∈ sentAt (ops ++ [.update a c]) pk k, y.wv = d.wv) →
          ∀ k y, Token.stateAt t'.processed k pk = some y → ∃ d ∈ sentAt (ops ++ [.update a c]) pk k, y.wv = d.wv := by
        intro t t' b e hold k y hy
        by_cases hc : c = .finalized
        · subst hc; rw [update_final_processed e] at hy; exact hold k y hy
        rcases (update_processed e).2 with e' | ⟨x, e'⟩
        · rw [e'] at hy; exact hold k y hy
        · rw [e', stateAt_insertAccount] at hy
          by_cases hm : a.slot = k ∧ a.pubkey = pk
          · rw [if_pos hm] at hy
            have hself : a ∈ sentAt (ops ++ [.update a c]) pk k := by
              unfold sentAt; rw [List.filterMap_append, List.mem_append]
              right; simp [hc, hm.1, hm.2]
            split at hy
            · rename_i z hz
              split at hy
              · cases hy; exact ⟨a, hself, rfl⟩
              · cases hy; exact hold k y hz
            · cases hy; exact ⟨a, hself, rfl⟩
          · rw [if_neg hm] at hy; exact hold k y hy
      simp only [Sys.step, Sys.update, Run.bind_eq_ok, Run.pure_eq, Run.ok.injEq] at h2
      obtain ⟨⟨w2, b⟩, ⟨⟨b1, t1⟩, e1, h2⟩, rfl⟩ := h2
      have s1 := one _ _ _ e1 old
      have taken : a.pubkey = pk → b1 = true := by
        intro hpk
        have hpa := ht (.update a c) (by simp) a rfl hpk
        by_cases hc : c = .finalized
        · obtain ⟨x, T, hx⟩ := hpa.2 w1.token.table
          exact (C132_taken X _ _ _ _ _ e1).2 hc (parses_token hpa) ⟨x, T, hx⟩
        · rw [update_answer hc (parses_token hpa) hpa.2 e1]
          intro y hy
          rw [hpk] at hy
          obtain ⟨d, hd, e⟩ := ih1 _ _ hy
          rw [e]
          exact ho ops a c [] rfl hc hpk d hd
      cases b1 with
      | true => simp at h2; obtain ⟨rfl, rfl⟩ := h2; exact ⟨s1, h, ih2, ih3⟩
      | false =>
        have hpk : a.pubkey ≠ pk := fun e => by simpa using taken e
        simp only [Bool.false_eq_true, if_false, Run.bind_eq_ok] at h2
        obtain ⟨⟨b2, t2⟩, e2, h2⟩ := h2
        have s2 := one _ _ _ e2 s1
        cases b2 with
        | true => simp at h2; obtain ⟨rfl, rfl⟩ := h2; exact ⟨s2, h, ih2, ih3⟩
        | false =>
          simp only [Bool.false_eq_true, if_false, Run.bind_eq_ok, Run.ok.injEq, Prod.mk.injEq] at h2
          obtain ⟨⟨m, b3⟩, e3, rfl, rfl⟩ := h2
          refine ⟨s2, h ++ [.update F a c], ?_, ?_⟩
          · rw [Store.run_append, ih2]; change w1.main.run [.update F a c] = _; simp [Store.run, Store.step, e3]
          · intro G d e hd
            simp only [List.mem_append, List.mem_cons, Op.update.injEq, List.not_mem_nil, or_false] at hd
            rcases hd with hd | ⟨-, rfl, -⟩
            · exact ih3 G d e hd
            · exact hpk
    | init a =>
      simp only [Sys.step, Sys.init] at h2
      split at h2
      · simp only [Run.bind_eq_ok, Run.pure_eq, Run.ok.injEq, init_eq_update] at h2
        obtain ⟨t, ⟨⟨b, t'⟩, e1, rfl⟩, rfl⟩ := h2
        refine ⟨fun k y hy => ?_, h, ih2, ih3⟩
        simp only [update_final_processed e1] at hy
        exact old k y hy
      · rename_i hne
        simp only [Run.bind_eq_ok, Run.pure_eq, Run.ok.injEq, Store.initializeOrUpdate] at h2
        obtain ⟨m, ⟨⟨m', b⟩, e1, rfl⟩, rfl⟩ := h2
        refine ⟨old, h ++ [.update F a .finalized], ?_, ?_⟩
        · rw [Store.run_append, ih2]; change w1.main.run [.update F a .finalized] = _; simp [Store.run, Store.step, e1]
        · intro G d e hd
          simp only [List.mem_append, List.mem_cons, Op.update.injEq, List.not_mem_nil, or_false] at hd
          rcases hd with hd | ⟨-, rfl, -⟩
          · exact ih3 G d e hd
          · exact fun e => hne (ht (.init d) (by simp) d rfl e).1
    | slot o info c =>
      simp only [Sys.step, Sys.slot, Run.bind_eq_ok, Run.pure_eq, Run.ok.injEq] at h2
      obtain ⟨⟨w2, l⟩, ⟨⟨l1, t1⟩, e1, ⟨l2, t2⟩, e2, ⟨m, l3⟩, e3, h2⟩, rfl⟩ := h2
      simp only [Prod.mk.injEq] at h2
      obtain ⟨rfl, rfl⟩ := h2
      obtain ⟨sl1, or1, i1⟩ := slot_inv hi (by omega) e1
      refine ⟨fun k y hy => old k y (slot_keeps hi (by omega) e1 (slot_keeps i1 (by omega) e2 hy)), h ++ [.slot F o.main info c], ?_, ?_⟩
      · rw [Store.run_append, ih2]; change w1.main.run [.slot F o.main info c] = _; simp [Store.run, Store.step, e3]
      · intro G d e hd
        simp only [List.mem_append, List.mem_cons, List.not_mem_nil, or_false, reduceCtorEq] at hd
        exact ih3 G d e hd

/-- **C133 (partial)**. The default storage is never handed the account, if its states for a slot arrive in the order of their write versions.
Missing: states that arrive late or twice. -/
theorem C133_kept_out_partial (X : Codecs) (F : Filters) (ops : List SOp) (w : Sys) (pk : Pubkey) (c : Commitment)
    (hn : 2 * ops.length < 2 ^ 31) (hr : Sys.run X F ops .empty = .ok w) (ht : OfTokenProgram X pk ops) (ho : SentInOrder pk ops) :
    w.main.getAccount pk c = .ok none := by
  obtain ⟨-, h, h1, h2⟩ := kept_step ops hn hr ht ho
  obtain ⟨s, e1, -, -, -, e2⟩ := C11_never_panics_always_returns h
  have e1 := e1.symm.trans h1
  simp only [Run.ok.injEq] at e1
  subst e1
  obtain ⟨r, hr⟩ := e2 pk c
  cases r with
  | none => exact hr
  | some a =>
    obtain ⟨e, G, d, hm⟩ := C12_reads_were_submitted h _ h1 pk c a hr
    exact absurd e (h2 _ _ _ hm)

/-! ## Concrete histories -/

/-- `alice`'s token account changes twice in slot 5. -/
def keptCalls : List SOp := [.init mintAcct, .update (tokenAcct Toy.alice 5 1) .processed, .update (tokenAcct Toy.alice 5 2) .processed,
  .slot ⟨plainOrders, plainOrders, .asIs⟩ ⟨5, 4, 0⟩ .confirmed]

/-- The older state arrives last. -/
def lateCalls : List SOp := [.init mintAcct, .update (tokenAcct Toy.alice 5 2) .processed, .update (otherAcct 5 1) .processed]

theorem kept_token {ops : List SOp} (h : ∀ o ∈ ops, ∀ a, submitted o = some a → a.pubkey = Toy.alice →
    (∃ k n, a = tokenAcct Toy.alice k n) ∨ ∃ k n, a = otherAcct k n) : OfTokenProgram Toy.codecs Toy.alice ops := by
  intro o ho a ha e
  rcases h o ho a ha e with ⟨k, n, rfl⟩ | ⟨k, n, rfl⟩
  · exact parses_tokenAcct _ _ _
  · exact ⟨.inl rfl, fun T => ⟨_, _, classify_otherAcct T k n⟩⟩

theorem keptCalls_token : OfTokenProgram Toy.codecs Toy.alice keptCalls := by
  refine kept_token fun o ho a ha e => ?_
  simp only [keptCalls, List.mem_cons, List.not_mem_nil, or_false] at ho
  rcases ho with rfl | rfl | rfl | rfl <;> cases ha
  · exact absurd e (by decide +kernel)
  · exact .inl ⟨_, _, rfl⟩
  · exact .inl ⟨_, _, rfl⟩

theorem lateCalls_token : OfTokenProgram Toy.codecs Toy.alice lateCalls := by
  refine kept_token fun o ho a ha e => ?_
  simp only [lateCalls, List.mem_cons, List.not_mem_nil, or_false] at ho
  rcases ho with rfl | rfl | rfl <;> cases ha
  · exact absurd e (by decide +kernel)
  · exact .inl ⟨_, _, rfl⟩
  · exact .inr ⟨_, _, rfl⟩

theorem keptCalls_order : SentInOrder Toy.alice keptCalls := by
  rintro pre a c post e hc hpk
  have : pre.length < keptCalls.length := by rw [e]; simp
  have he : keptCalls[pre.length]? = some (.update a c) := by rw [e]; simp
  have hp : pre = keptCalls.take pre.length := by rw [e]; simp
  rw [hp]
  generalize pre.length = n at *
  simp only [keptCalls, List.length_cons, List.length_nil] at this
  match n, this with
  | 0, _ => simp [keptCalls] at he
  | 1, _ =>
    simp only [keptCalls, List.getElem?_cons_succ, List.getElem?_cons_zero, Option.some.injEq, SOp.update.injEq] at he
    obtain ⟨rfl, rfl⟩ := he
    simp [keptCalls, sentAt]
  | 2, _ =>
    simp only [keptCalls, List.getElem?_cons_succ, List.getElem?_cons_zero, Option.some.injEq, SOp.update.injEq] at he
    obtain ⟨rfl, rfl⟩ := he
    simp [keptCalls, sentAt, tokenAcct, Toy.acct]
  | 3, _ => simp [keptCalls] at he

example : ∃ w, Sys.run Toy.codecs allowAll keptCalls .empty = .ok w ∧ w.token.getAccount Toy.alice .confirmed ≠ .ok none ∧
    w.main.getAccount Toy.alice .confirmed = .ok none := by
  obtain ⟨w, h1, h2⟩ := of_check (r := Sys.run Toy.codecs allowAll keptCalls .empty)
    (p := fun w : Sys => decide (w.token.getAccount Toy.alice .confirmed ≠ .ok none)) (by decide +kernel)
  exact ⟨w, h1, by simpa using h2,
    C133_kept_out_partial Toy.codecs allowAll keptCalls w Toy.alice .confirmed (by decide) h1 keptCalls_token keptCalls_order⟩

/-- The full claim is false: a state that arrives after a newer one is refused by the token store, and passed on. -/
theorem C133_refuted : ¬ C133_statement := by
  intro h
  obtain ⟨w, h1, h2⟩ := of_check (r := Sys.run Toy.codecs allowAll lateCalls .empty)
    (p := fun w : Sys => decide (w.main.getAccount Toy.alice .processed ≠ .ok none)) (by decide +kernel)
  exact absurd (h Toy.codecs allowAll lateCalls w Toy.alice .processed (by decide) h1 lateCalls_token) (by simpa using h2)

/-- What follows: when the slot is finalized, the dispatcher reports the newer state and then the older one, which is not
what a read shows. -/
theorem C133_refuted_reported : ∃ w w' l, Sys.run Toy.codecs allowAll lateCalls .empty = .ok w ∧
    w.slot allowAll ⟨plainOrders, plainOrders, .asIs⟩ ⟨5, 4, 0⟩ .finalized = .ok (w', l) ∧
    l.getLast? = some (otherAcct 5 1) ∧ ∀ a, w'.getAccount Toy.alice .finalized = .ok (some a) →
      a.account ≠ (otherAcct 5 1).account := by
  obtain ⟨w, h1, h2⟩ := of_check (r := Sys.run Toy.codecs allowAll lateCalls .empty)
    (p := fun w : Sys => returned (w.slot allowAll ⟨plainOrders, plainOrders, .asIs⟩ ⟨5, 4, 0⟩ .finalized) (fun x =>
      decide (x.2.getLast? = some (otherAcct 5 1)) && returned (x.1.getAccount Toy.alice .finalized) (fun r =>
        r.all (fun a => decide (a.account ≠ (otherAcct 5 1).account))))) (by decide +kernel)
  obtain ⟨⟨w', l⟩, h3, h4⟩ := of_check h2
  simp only [Bool.and_eq_true, decide_eq_true_eq] at h4
  obtain ⟨r, h5, h6⟩ := of_check h4.2
  refine ⟨w, w', l, h1, h3, h4.1, fun a ha => ?_⟩
  rw [h5] at ha
  simp only [Run.ok.injEq] at ha
  subst ha
  simpa using h6

end LAM.Props
