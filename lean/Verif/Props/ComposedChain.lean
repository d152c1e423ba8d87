import Verif.Spec.ComposedChain
import Verif.Props.ComposedKept
/-!
# The dispatcher around the token store and the in-memory store: reads along the chain: C134
-/
namespace LAM.Props
open Spec Token Composed
open TokenStore (TOp)

theorem create_again (T : MintTable) (mint : Pubkey) : (T.getOrCreate mint).2.getOrCreate mint = T.getOrCreate mint := by
  unfold MintTable.getOrCreate
  cases h : T.index.find mint with
  | some i => simp [h]
  | none => simp [AMap.find_insert]

/-- Classifying an account again with the table left by the first time gives the same. -/
theorem classify_again {X : Codecs} {T T' : MintTable} {a : AccountData} {r : Option ProgramAccount}
    (h : classify X T a = .ok (r, T')) : classify X T' a = .ok (r, T') := by
  unfold classify at h ⊢
  split at h
  · rename_i hc; simp at h; obtain ⟨rfl, rfl⟩ := h; rw [if_pos hc]
  rename_i hc
  rw [if_neg hc]
  split at h
  · rename_i ho
    rw [if_pos ho]
    simp only [Run.bind_eq_ok] at h ⊢
    obtain ⟨d, hd, k, hk, h⟩ := h
    refine ⟨d, hd, k, hk, ?_⟩
    rcases k with _ | ⟨_ | _ | _, e⟩
    · simp at h ⊢; exact h.1
    · cases hm : Spl.unpackMint d with
      | none => simp [hm] at h ⊢; exact h.1
      | some m =>
        simp only [hm, Run.bind_eq_ok, Run.pure_eq, Run.ok.injEq, Prod.mk.injEq] at h ⊢
        obtain ⟨x, h1, h2, -⟩ := h
        exact ⟨x, h1, h2, trivial⟩
    · cases hm : Spl.unpackAccount d with
      | none => simp [hm] at h ⊢; exact h.1
      | some m =>
        simp only [hm, Run.bind_eq_ok, Run.pure_eq, Run.ok.injEq, Prod.mk.injEq] at h ⊢
        obtain ⟨x, h1, h2, rfl⟩ := h
        rw [create_again]
        exact ⟨x, h1, h2, rfl⟩
    · cases hm : Spl.unpackMultisig d with
      | none => simp [hm] at h ⊢; exact h.1
      | some m => simp [hm] at h ⊢; exact h.1
  · rename_i ho
    rw [if_neg ho]
    simp only [Run.bind_eq_ok] at h ⊢
    obtain ⟨d, hd, h⟩ := h
    refine ⟨d, hd, ?_⟩
    split at h
    · rename_i hl
      rw [if_pos hl]
      cases hm : Spl.unpackMint d with
      | none => simp [hm] at h ⊢; exact h.1
      | some m => simp [hm] at h ⊢; exact h.1
    · rename_i hl
      rw [if_neg hl]
      split at h
      · rename_i hl'
        rw [if_pos hl']
        cases hm : Spl.unpackAccount d with
        | none => simp [hm] at h ⊢; exact h.1
        | some m =>
          simp only [hm, Run.pure_eq, Run.ok.injEq, Prod.mk.injEq] at h ⊢
          obtain ⟨h2, rfl⟩ := h
          rw [create_again]
          exact ⟨h2, rfl⟩
      · rename_i hl'
        rw [if_neg hl']
        cases hm : Spl.unpackMultisig d with
        | none => simp [hm] at h ⊢; exact h.1
        | some m => simp [hm] at h ⊢; exact h.1

/-- An update that was refused is refused again, and changes nothing the second time. -/
theorem refused_again {X : Codecs} {s s' : TokenStore} {a : AccountData} {c : Commitment}
    (h : s.updateAccount X a c = .ok (false, s')) : s'.updateAccount X a c = .ok (false, s') := by
  obtain ⟨T, rfl, hT⟩ := update_refused h
  have h0 := h
  unfold TokenStore.updateAccount at h
  simp only [Run.bind_eq_ok] at h
  obtain ⟨isT, hisT, h⟩ := h
  cases isT with
  | false =>
    simp only [Bool.not_false, if_true, Run.pure_eq, Run.ok.injEq, Prod.mk.injEq, true_and] at h
    rw [← h]; rw [← h] at h0; exact h0
  | true =>
    simp only [Bool.not_true, Bool.false_eq_true, if_false, Run.bind_eq_ok] at h
    obtain ⟨⟨r, T2⟩, hcl, h⟩ := h
    have hmono : ∀ k, (s.table.index.find k).isSome → (T.index.find k).isSome := by
      intro k hk
      rcases hT with rfl | ⟨mint, rfl⟩
      · exact hk
      · unfold MintTable.getOrCreate
        split
        · exact hk
        · rw [AMap.find_insert]; split
          · rfl
          · exact hk
    have hisT' : ({ s with table := T } : TokenStore).isTokenAccount a = .ok true := by
      unfold TokenStore.isTokenAccount at hisT ⊢
      split at hisT
      · rename_i hc
        rw [if_pos]
        rcases hc with hc | hc
        · exact .inl (hmono _ hc)
        · exact .inr hc
      · split
        · rfl
        · exact hisT
    have hTT : T2 = T := by
      cases r with
      | none =>
        simp only [Run.pure_eq, Run.ok.injEq, Prod.mk.injEq, true_and] at h
        exact congrArg TokenStore.table h
      | some x =>
        simp only at h
        split at h
        · simp only [Run.pure_eq, Run.ok.injEq, Prod.mk.injEq] at h
          exact congrArg TokenStore.table h.2
        · simp only [Run.bind_eq_ok] at h
          obtain ⟨s1, hs1, h⟩ := h
          simp at h
    subst hTT
    unfold TokenStore.updateAccount
    rw [hisT']
    simp only [Run.ok_bind, Bool.not_true, Bool.false_eq_true, if_false, classify_again hcl]
    exact h

theorem twice_append (l l' : List SOp) : twice (l ++ l') = twice l ++ twice l' := by simp [twice]

/-- What a step of the dispatcher is for the token store. -/
theorem step_twice {X : Codecs} {F : Filters} {w w' : Sys} {o : SOp} (h : w.step X F o = .ok w') :
    TokenStore.run X (twiceCall o) w.token = .ok w'.token := by
  cases o with
  | update a c =>
    simp only [Sys.step, Sys.update, Run.bind_eq_ok, Run.pure_eq, Run.ok.injEq] at h
    obtain ⟨⟨w2, b⟩, ⟨⟨b1, t1⟩, e1, h⟩, rfl⟩ := h
    have hs : TokenStore.run X (twiceCall (.update a c)) w.token = .ok t1 := by
      simp [twiceCall, aloneCall, TokenStore.run, TokenStore.step, e1]
    rw [hs]
    cases b1 with
    | true => simp at h; obtain ⟨rfl, rfl⟩ := h; rfl
    | false =>
      simp only [Bool.false_eq_true, if_false, refused_again e1, Run.ok_bind, Run.bind_eq_ok, Run.ok.injEq, Prod.mk.injEq] at h
      obtain ⟨⟨m, b3⟩, e3, rfl, rfl⟩ := h
      rfl
  | init a =>
    simp only [Sys.step, Sys.init] at h
    split at h
    · rename_i ho
      simp only [Run.bind_eq_ok, Run.pure_eq, Run.ok.injEq] at h
      obtain ⟨t, e1, rfl⟩ := h
      simp [twiceCall, aloneCall, ho, TokenStore.run, TokenStore.step, e1]
    · rename_i ho
      simp only [Run.bind_eq_ok, Run.pure_eq, Run.ok.injEq] at h
      obtain ⟨m, e1, rfl⟩ := h
      simp [twiceCall, aloneCall, ho, TokenStore.run]
  | slot o info c =>
    simp only [Sys.step, Sys.slot, Run.bind_eq_ok, Run.pure_eq, Run.ok.injEq] at h
    obtain ⟨⟨w2, l⟩, ⟨⟨l1, t1⟩, e1, ⟨l2, t2⟩, e2, ⟨m, l3⟩, e3, h⟩, rfl⟩ := h
    simp only [Prod.mk.injEq] at h
    obtain ⟨rfl, rfl⟩ := h
    simp [twiceCall, TokenStore.run, TokenStore.step, e1, e2]

theorem run_twice {X : Codecs} {F : Filters} (ops : List SOp) {w w' : Sys} (h : Sys.run X F ops w = .ok w') :
    TokenStore.run X (twice ops) w.token = .ok w'.token := by
  induction ops generalizing w with
  | nil => simp [Sys.run] at h; subst h; rfl
  | cons o ops ih =>
    simp only [Sys.run, Run.bind_eq_ok] at h
    obtain ⟨w1, h1, h2⟩ := h
    have : twice (o :: ops) = twiceCall o ++ twice ops := by simp [twice]
    rw [this]
    exact (storeRun_append _ _).2 ⟨_, step_twice h1, ih h2⟩

/-- The history that the token store gets, cut at a call that is no notification. -/
theorem twice_cut {ops : List SOp} {pre post : List TOp} {x : TOp} (hx : ∀ σ info c, x ≠ .slot σ info c)
    (h : twice ops = pre ++ x :: post) : ∃ p o q, ops = p ++ o :: q ∧ aloneCall o = [x] ∧ pre = twice p ∧ post = twice q := by
  induction ops generalizing pre with
  | nil => simp [twice] at h
  | cons o ops ih =>
    have e : twice (o :: ops) = twiceCall o ++ twice ops := by simp [twice]
    rw [e] at h
    have cont : ∀ t, pre = twiceCall o ++ t → twice ops = t ++ x :: post →
        ∃ p o' q, o :: ops = p ++ o' :: q ∧ aloneCall o' = [x] ∧ pre = twice p ∧ post = twice q := by
      intro t h1 h2
      obtain ⟨p, o', q, rfl, h3, rfl, h4⟩ := ih h2
      exact ⟨o :: p, o', q, rfl, h3, by rw [h1]; simp [twice], h4⟩
    rcases List.append_eq_append_iff.1 h with ⟨t, h1, h2⟩ | ⟨t, h1, h2⟩
    · exact cont t h1 h2
    · cases t with
      | nil => simp at h1 h2; exact cont [] (by simp [h1]) (by simpa using h2.symm)
      | cons y t =>
        simp only [List.cons_append, List.cons.injEq] at h2
        obtain ⟨rfl, h2⟩ := h2
        cases o with
        | update b d =>
          simp only [twiceCall, aloneCall] at h1
          cases pre with
          | nil => simp at h1; exact ⟨[], .update b d, ops, rfl, by simp [aloneCall, h1.1], rfl, by simp [h2, h1.2]⟩
          | cons => simp at h1
        | init b =>
          by_cases ho : b.account.owner = Spl.tokenId ∨ b.account.owner = Spl.token2022Id
          · simp only [twiceCall, aloneCall, if_pos ho] at h1
            cases pre with
            | nil => simp at h1; exact ⟨[], .init b, ops, rfl, by simp [aloneCall, h1.1, ho], rfl, by simp [h2, h1.2]⟩
            | cons => simp at h1
          · simp only [twiceCall, aloneCall, if_neg ho] at h1
            cases pre <;> simp at h1
        | slot o i d =>
          have : x ∈ twiceCall (.slot o i d) := by rw [h1]; simp
          simp only [twiceCall, List.mem_cons, List.not_mem_nil, or_false] at this
          rcases this with rfl | rfl <;> exact absurd rfl (hx _ _ _)

/-- The history that the token store gets, cut at a notification: before the first call or between the two. -/
theorem twice_cut_slot {ops : List SOp} {pre post : List TOp} {σ : Orders} {info : SlotInfo} {c : Commitment}
    (h : twice ops = pre ++ TOp.slot σ info c :: post) :
    ∃ p o q, ops = p ++ SOp.slot o info c :: q ∧ (pre = twice p ∨ pre = twice p ++ [.slot o.first info c]) := by
  induction ops generalizing pre with
  | nil => simp [twice] at h
  | cons o ops ih =>
    have e : twice (o :: ops) = twiceCall o ++ twice ops := by simp [twice]
    rw [e] at h
    have cont : ∀ t, pre = twiceCall o ++ t → twice ops = t ++ TOp.slot σ info c :: post →
        ∃ p o' q, o :: ops = p ++ SOp.slot o' info c :: q ∧ (pre = twice p ∨ pre = twice p ++ [.slot o'.first info c]) := by
      intro t h1 h2
      obtain ⟨p, o', q, rfl, h3⟩ := ih h2
      refine ⟨o :: p, o', q, rfl, ?_⟩
      have e' : twice (o :: p) = twiceCall o ++ twice p := by simp [twice]
      rcases h3 with rfl | rfl
      · exact .inl (by rw [h1, e'])
      · exact .inr (by rw [h1, e', List.append_assoc])
    rcases List.append_eq_append_iff.1 h with ⟨t, h1, h2⟩ | ⟨t, h1, h2⟩
    · exact cont t h1 h2
    · cases t with
      | nil => simp at h1 h2; exact cont [] (by simp [h1]) (by simpa using h2.symm)
      | cons x t =>
        simp only [List.cons_append, List.cons.injEq] at h2
        obtain ⟨rfl, -⟩ := h2
        cases o with
        | update b d =>
          simp only [twiceCall, aloneCall] at h1
          cases pre <;> simp at h1
        | init b =>
          simp only [twiceCall, aloneCall] at h1
          split at h1 <;> cases pre <;> simp at h1
        | slot o i d =>
          simp only [twiceCall] at h1
          match pre, h1 with
          | [], h1 =>
            simp only [List.nil_append, List.cons.injEq, TOp.slot.injEq] at h1
            obtain ⟨⟨rfl, rfl, rfl⟩, -⟩ := h1
            exact ⟨[], o, ops, rfl, .inl rfl⟩
          | [y], h1 =>
            simp only [List.cons_append, List.nil_append, List.cons.injEq, TOp.slot.injEq] at h1
            obtain ⟨rfl, ⟨rfl, rfl, rfl⟩, -⟩ := h1
            exact ⟨[], o, ops, rfl, .inr rfl⟩
          | y :: z :: pre, h1 => simp at h1

/-! What the two histories have in common. -/

theorem twice_submittedAt (ops : List SOp) (pk : Pubkey) (k : Nat) : submittedAt (twice ops) pk k = submittedAt (alone ops) pk k := by
  induction ops with
  | nil => rfl
  | cons o ops ih =>
    have e : twice (o :: ops) = twiceCall o ++ twice ops := by simp [twice]
    have e' : alone (o :: ops) = aloneCall o ++ alone ops := by simp [alone]
    rw [e, e']
    unfold submittedAt at ih ⊢
    rw [List.filterMap_append, List.filterMap_append, ih]
    cases o <;> simp [twiceCall, aloneCall]

theorem twice_confirmed (ops : List SOp) : confirmedOf (twice ops) = confirmedOf (alone ops) := by
  induction ops using List.reverseRecOn with
  | nil => rfl
  | append_singleton ops o ih =>
    have e : twice (ops ++ [o]) = twice ops ++ twiceCall o := by simp [twice]
    have e' : alone (ops ++ [o]) = alone ops ++ aloneCall o := by simp [alone]
    rw [e, e']
    unfold confirmedOf at ih ⊢
    rw [List.foldl_append, List.foldl_append, ih]
    cases o with
    | slot o info c => cases c <;> simp [twiceCall, aloneCall]
    | _ => rfl

theorem twice_final (ops : List SOp) : lastFinal (twice ops) = lastFinal (alone ops) := by
  induction ops using List.reverseRecOn with
  | nil => rfl
  | append_singleton ops o ih =>
    have e : twice (ops ++ [o]) = twice ops ++ twiceCall o := by simp [twice]
    have e' : alone (ops ++ [o]) = alone ops ++ aloneCall o := by simp [alone]
    rw [e, e']
    unfold lastFinal at ih ⊢
    rw [List.foldl_append, List.foldl_append, ih]
    cases o with
    | slot o info c => cases c <;> simp [twiceCall, aloneCall]
    | _ => rfl

theorem mem_twice {o : TOp} {ops : List SOp} (h : o ∈ alone ops) : o ∈ twice ops := by
  simp only [alone, twice, List.mem_flatMap] at h ⊢
  obtain ⟨x, h1, h2⟩ := h
  refine ⟨x, h1, ?_⟩
  cases x <;> simp_all [twiceCall, aloneCall]

theorem known_twice {X : Codecs} {ops : List SOp} {k : Nat} (h : Known X (alone ops) k) : Known X (twice ops) k := by
  rcases h with ⟨σ, info, c, h, e⟩ | ⟨a, c, h, e⟩
  · exact .inl ⟨σ, info, c, mem_twice h, e⟩
  · exact .inr ⟨a, c, mem_twice h, e⟩

theorem told_linked {X : Codecs} {ops : List SOp} {k : Nat} (h : Told X ops k) : LinkNoted X (twice ops) k := by
  obtain ⟨pre, o, info, c, post, rfl, rfl, h⟩ := h
  have e : twice (pre ++ SOp.slot o info c :: post) =
      twice pre ++ .slot o.first info c :: .slot o.second info c :: twice post := by simp [twice, twiceCall]
  rcases h with rfl | ⟨rfl, h1, h2⟩
  · exact ⟨twice pre ++ [.slot o.first info .processed], o.second, info, .processed, twice post, by rw [e]; simp, rfl,
      .inl ⟨o.first, info, .processed, by simp, rfl⟩, .inl rfl⟩
  · exact ⟨twice pre, o.first, info, .confirmed, _, e, rfl, known_twice h1, .inr ⟨rfl, by rw [twice_confirmed]; exact h2⟩⟩

theorem alone_cut {p q : List SOp} {o : SOp} {x : TOp} (h : aloneCall o = [x]) :
    alone (p ++ o :: q) = alone p ++ x :: alone q := by simp [alone, h]

theorem aloneCall_update {o : SOp} {a : AccountData} {c : Commitment} (h : aloneCall o = [.update a c]) : o = .update a c := by
  cases o with
  | update b d => simp [aloneCall] at h; rw [h.1, h.2]
  | init b => simp only [aloneCall] at h; split at h <;> simp at h
  | slot => simp [aloneCall] at h

theorem mem_alone {x : TOp} {ops : List SOp} (hx : ∀ σ info c, x ≠ .slot σ info c) (h : x ∈ twice ops) : x ∈ alone ops := by
  obtain ⟨pre, post, h⟩ := List.append_of_mem h
  obtain ⟨p, o, q, rfl, h1, -⟩ := twice_cut hx h
  rw [alone_cut h1]; simp

theorem newest_twice {ops : List SOp} {par : Nat → Nat} {pk : Pubkey} {s k : Nat} {a : AccountData} :
    NewestTrue (twice ops) par pk s a k ↔ NewestTrue (alone ops) par pk s a k := by
  constructor <;>
  · intro h
    induction h with
    | here h => exact .here (by simpa [twice_submittedAt] using h)
    | up h _ ih => exact .up (by simpa [twice_submittedAt] using h) ih

theorem twice_length (ops : List SOp) : (twice ops).length ≤ 2 * ops.length := by
  induction ops with
  | nil => simp [twice]
  | cons o ops ih =>
    have e : twice (o :: ops) = twiceCall o ++ twice ops := by simp [twice]
    have : (twiceCall o).length ≤ 2 := by
      cases o with
      | init b => simp only [twiceCall, aloneCall]; split <;> simp
      | _ => simp [twiceCall, aloneCall]
    rw [e, List.length_append, List.length_cons]; omega

theorem parents_twice {ops : List SOp} {par : Nat → Nat} (h : TrueParents par (alone ops)) : TrueParents par (twice ops) := by
  intro σ info c hm
  obtain ⟨pre, post, e⟩ := List.append_of_mem hm
  obtain ⟨p, o, q, rfl, -⟩ := twice_cut_slot e
  exact h o.first info c (by simp [alone, aloneCall])

theorem onTime_twice {ops : List SOp} (h : OnTime (alone ops)) : OnTime (twice ops) := by
  intro pre a c post e hc
  obtain ⟨p, o, q, rfl, h1, rfl, -⟩ := twice_cut (by simp) e
  rw [twice_final]
  exact h (alone p) a c (alone q) (alone_cut h1) hc

theorem accepted_twice {X : Codecs} {F : Filters} {pk : Pubkey} {ops : List SOp} {w : Sys} (hr : Sys.run X F ops .empty = .ok w)
    (h : AcceptedBehind X F pk ops) : Accepted X pk (twice ops) := by
  intro pre a c post s e hc hpk hs
  obtain ⟨p, o, q, rfl, h1, rfl, -⟩ := twice_cut (by simp) e
  obtain rfl := aloneCall_update h1
  rw [sys_run_append] at hr
  obtain ⟨w1, hw1, -⟩ := Run.bind_eq_ok.1 hr
  have := run_twice p hw1
  change TokenStore.run X (twice p) .empty = _ at this
  rw [hs] at this
  simp only [Run.ok.injEq] at this
  subst this
  exact h p a c q w1 rfl hc hpk hw1

theorem taken_twice {X : Codecs} {F : Filters} {ops : List SOp} {w : Sys} {a : AccountData} {x : ProgramAccount}
    (hr : Sys.run X F ops .empty = .ok w) (h : Taken X (twice ops) a x) : TakenBehind X F ops a x := by
  obtain ⟨pre, c, post, s, s', e, hc, hs, -, hcl⟩ := h
  obtain ⟨p, o, q, rfl, h1, rfl, -⟩ := twice_cut (by simp) e
  obtain rfl := aloneCall_update h1
  rw [sys_run_append] at hr
  obtain ⟨w1, hw1, -⟩ := Run.bind_eq_ok.1 hr
  have := run_twice p hw1
  change TokenStore.run X (twice p) .empty = _ at this
  rw [hs] at this
  simp only [Run.ok.injEq] at this
  subst this
  exact ⟨p, c, q, w1, _, rfl, hc, hw1, hcl⟩

/-- **C134**. The token store behind the dispatcher is in the state of a token store that gets every notification twice, and
everything else once. -/
theorem C134_notified_twice (X : Codecs) (F : Filters) (ops : List SOp) (w : Sys) (hr : Sys.run X F ops .empty = .ok w) :
    TokenStore.run X (twice ops) .empty = .ok w.token := run_twice ops hr

/-- **C134**. A confirmed read shows the newest state on the chain of the confirmed slot if it is above the last finalized slot and the
parents between were told; if the newest state is not above the last finalized slot, or there is none, the read is a
finalized read. -/
theorem C134_confirmed (X : Codecs) (F : Filters) (ops : List SOp) (w : Sys) (par : Nat → Nat) (pk : Pubkey)
    (hn : 2 * ops.length < 2 ^ 31) (hd : ∀ i, par i ≤ i) (hp : TrueParents par (alone ops)) (ha : AcceptedBehind X F pk ops)
    (hr : Sys.run X F ops .empty = .ok w) (ht : OnTime (alone ops)) :
    (∀ a k, NewestTrue (alone ops) par pk (confirmedOf (alone ops)) a k → lastFinal (alone ops) < k →
      (∀ i, Ancestor par (confirmedOf (alone ops)) i → Ancestor par i k → i ≠ k → Told X ops i) →
      ∃ x, TakenBehind X F ops a x ∧ w.getAccount pk .confirmed = x.toSolana w.token.mints k 0) ∧
    ((∀ a k, NewestTrue (alone ops) par pk (confirmedOf (alone ops)) a k → k ≤ lastFinal (alone ops)) →
      w.getAccount pk .confirmed = w.getAccount pk .finalized) := by
  have hlen := twice_length ops
  obtain ⟨h1, h2⟩ := C52_stream_partial X (twice ops) w.token par pk (by omega) hd (parents_twice hp) (accepted_twice hr ha)
    (run_twice ops hr) (onTime_twice ht)
  simp only [twice_confirmed, twice_final, newest_twice] at h1 h2
  refine ⟨fun a k hnew hk hl => ?_, h2⟩
  obtain ⟨x, h3, h4⟩ := h1 a k hnew hk (fun i a b c => told_linked (hl i a b c))
  exact ⟨x, taken_twice hr h3, h4⟩

/-- **C134**. For a key that is only ever a token account: a closed account is gone, and a live one is what a finalized read
shows. -/
theorem C134_finalized (X : Codecs) (F : Filters) (ops : List SOp) (w : Sys) (par : Nat → Nat) (pk : Pubkey) (a : AccountData) (k : Nat)
    (hn : 2 * ops.length < 2 ^ 31) (hd : ∀ i, par i ≤ i) (hp : TrueParents par (alone ops)) (ha : AcceptedBehind X F pk ops)
    (hr : Sys.run X F ops .empty = .ok w) (h0 : 0 < lastFinal (alone ops))
    (hnew : NewestTrue (alone ops) par pk (lastFinal (alone ops)) a k) (ht : OnTime (alone ops)) (hc : ToldChain X par pk ops)
    (hl : LoadedFirst pk (alone ops)) (hw : NoTwinClosed X pk (alone ops)) (hk : OnlyToken X pk (alone ops)) :
    ∃ x, TakenBehind X F ops a x ∧ w.getAccount pk .finalized = x.toSolana w.token.mints (lastFinal (alone ops)) 0 := by
  have hlen := twice_length ops
  have hsub : ∀ o ∈ twice ops, ∀ b, submittedBy o = some b → o ∈ alone ops := by
    intro o ho b hb
    exact mem_alone (by rintro σ info c rfl; simp [submittedBy] at hb) ho
  have hch : Chained X par pk (twice ops) := by
    intro pre σ info post e hlt
    obtain ⟨p, o, q, rfl, rfl | rfl⟩ := twice_cut_slot e
    · simp only [twice_final, twice_submittedAt] at hlt ⊢
      obtain ⟨c1, c2⟩ := hc p o info q rfl hlt
      refine ⟨c1, fun i k h1 h2 h3 h4 h5 => ?_⟩
      obtain ⟨c3, c4⟩ := c2 i k h1 h2 h3 h4 h5
      exact ⟨fun h => known_twice (c3 h), fun h => told_linked (c4 h)⟩
    · simp [lastFinal, List.foldl_append] at hlt; omega
  have hload : LoadedFirst pk (twice ops) := by
    intro pre o post b e h1 h2 h3
    obtain ⟨p, o', q, rfl, h4, rfl, -⟩ := twice_cut (by rintro σ info c rfl; simp [submittedBy] at h2) e
    rw [twice_final]
    exact hl (alone p) o (alone q) b (alone_cut h4) h1 h2 h3
  obtain ⟨x, h1, h2⟩ := C86_read_partial X (twice ops) w.token par pk a k (by omega) hd (parents_twice hp) (accepted_twice hr ha)
    (run_twice ops hr) (by rw [twice_final]; exact h0) (by rw [twice_final]; exact newest_twice.2 hnew) (onTime_twice ht) hch hload
    (fun o ho b hb => hw o (hsub o ho b hb) b hb) (fun o ho b hb => hk o (hsub o ho b hb) b hb)
  rw [twice_final] at h2
  exact ⟨x, taken_twice hr h1, h2⟩

/-! ## Concrete histories -/

def sameOrders : SlotOrders := ⟨plainOrders, plainOrders, .asIs⟩

/-- A state of `alice` at slot 1; slots 1 to 3 are notified as processed once each, then slot 3 as confirmed. -/
def toldOnce : List SOp := [.init mintAcct, .update (tokenAcct Toy.alice 1 1) .processed, .slot sameOrders ⟨1, 0, 1⟩ .processed,
  .slot sameOrders ⟨2, 1, 1⟩ .processed, .slot sameOrders ⟨3, 2, 1⟩ .processed, .slot sameOrders ⟨3, 2, 1⟩ .confirmed]

/-- Then slot 3 is finalized. -/
def toldFinal : List SOp := toldOnce ++ [.slot sameOrders ⟨3, 2, 1⟩ .finalized]

theorem toldOnce_alone : alone toldOnce = notifiedOnce := by
  have ho : mintAcct.account.owner = Spl.tokenId ∨ mintAcct.account.owner = Spl.token2022Id := by decide +kernel
  simp [alone, toldOnce, aloneCall, notifiedOnce, sameOrders, ho]

theorem toldFinal_alone : alone toldFinal = notifiedOnce ++ [.slot plainOrders ⟨3, 2, 1⟩ .finalized] := by
  rw [toldFinal]
  have : ∀ l l', alone (l ++ l') = alone l ++ alone l' := by intro l l'; simp [alone]
  rw [this, toldOnce_alone]; rfl

theorem toldFinal_parents : TrueParents before (alone toldFinal) := by
  rw [toldFinal_alone]
  intro σ info c hm
  simp only [notifiedOnce, List.cons_append, List.nil_append, List.mem_cons, List.not_mem_nil, or_false, reduceCtorEq, false_or,
    TOp.slot.injEq] at hm
  rcases hm with ⟨-, rfl, -⟩ | ⟨-, rfl, -⟩ | ⟨-, rfl, -⟩ | ⟨-, rfl, -⟩ | ⟨-, rfl, -⟩ <;> simp [before]

theorem toldOnce_parents : TrueParents before (alone toldOnce) := by
  intro σ info c hm
  refine toldFinal_parents σ info c ?_
  rw [toldFinal_alone, ← toldOnce_alone]; simp [hm]

theorem toldFinal_accounts (o : TOp) (ho : o ∈ alone toldFinal) (a : AccountData) (ha : submittedBy o = some a) :
    a = mintAcct ∨ a = tokenAcct Toy.alice 1 1 := by
  rw [toldFinal_alone] at ho
  simp only [notifiedOnce, List.cons_append, List.nil_append, List.mem_cons, List.not_mem_nil, or_false] at ho
  rcases ho with rfl | rfl | rfl | rfl | rfl | rfl | rfl <;> cases ha
  · exact .inl rfl
  · exact .inr rfl

theorem toldFinal_accepted : AcceptedBehind Toy.codecs allowAll Toy.alice toldFinal := by
  intro pre a c post w e hc hk hr
  have hm : TOp.update a c ∈ alone toldFinal := by rw [e]; simp [alone, aloneCall]
  rcases toldFinal_accounts _ hm a rfl with rfl | rfl
  · exact absurd hk (by decide +kernel)
  · exact ⟨parses_token (parses_tokenAcct _ _ _), (parses_tokenAcct _ _ _).2⟩

theorem toldOnce_accepted : AcceptedBehind Toy.codecs allowAll Toy.alice toldOnce := by
  intro pre a c post w e
  exact toldFinal_accepted pre a c (post ++ [.slot sameOrders ⟨3, 2, 1⟩ .finalized]) w (by rw [toldFinal, e]; simp)

theorem toldFinal_onTime : OnTime (alone toldFinal) := by
  intro pre a c post e
  refine every_call (ops := alone toldFinal) (P := fun pre o => ∀ a c, o = .update a c → c ≠ .finalized → lastFinal pre < a.slot) ?_
    pre _ post e a c rfl
  rw [toldFinal_alone]
  intro n hn a c
  match n, hn with
  | 0, _ | 2, _ | 3, _ | 4, _ | 5, _ | 6, _ => intro h; cases h
  | 1, _ => intro h; cases h; intro _; decide +kernel

theorem toldOnce_onTime : OnTime (alone toldOnce) := by
  intro pre a c post e
  exact toldFinal_onTime pre a c (post ++ [.slot plainOrders ⟨3, 2, 1⟩ .finalized]) (by rw [toldFinal_alone, ← toldOnce_alone, e]; simp)

theorem toldOnce_told {i : Nat} (h : i = 2 ∨ i = 3) : Told Toy.codecs toldOnce i := by
  rcases h with rfl | rfl
  · exact ⟨toldOnce.take 3, sameOrders, ⟨2, 1, 1⟩, .processed, toldOnce.drop 4, rfl, rfl, .inl rfl⟩
  · exact ⟨toldOnce.take 4, sameOrders, ⟨3, 2, 1⟩, .processed, toldOnce.drop 5, rfl, rfl, .inl rfl⟩

theorem toldOnce_newest {ops : List TOp} (h1 : submittedAt ops Toy.alice 3 = []) (h2 : submittedAt ops Toy.alice 2 = [])
    (h3 : submittedAt ops Toy.alice 1 = [tokenAcct Toy.alice 1 1]) : NewestTrue ops before Toy.alice 3 (tokenAcct Toy.alice 1 1) 1 :=
  .up h1 (.up h2 (.here ⟨[], [], h3, by simp, by simp⟩))

/-- The confirmed read finds the state of slot 1. -/
example : ∃ w x, Sys.run Toy.codecs allowAll toldOnce .empty = .ok w ∧ TakenBehind Toy.codecs allowAll toldOnce (tokenAcct Toy.alice 1 1) x ∧
    w.getAccount Toy.alice .confirmed = x.toSolana w.token.mints 1 0 := by
  obtain ⟨w, h1, -⟩ := of_check (r := Sys.run Toy.codecs allowAll toldOnce .empty) (p := fun _ => true) (by decide +kernel)
  have hc : confirmedOf (alone toldOnce) = 3 := by decide +kernel
  obtain ⟨x, h2, h3⟩ := (C134_confirmed Toy.codecs allowAll toldOnce w before Toy.alice (by decide) before_le toldOnce_parents
    toldOnce_accepted h1 toldOnce_onTime).1 (tokenAcct Toy.alice 1 1) 1
    (by rw [hc]; exact toldOnce_newest (by decide +kernel) (by decide +kernel) (by decide +kernel)) (by decide +kernel) (by
      intro i e1 e2 e3
      rw [hc] at e1
      have := ancestor_before e1
      have := ancestor_before e2
      exact toldOnce_told (by omega))
  exact ⟨w, x, h1, h2, h3⟩

theorem toldFinal_chain : ToldChain Toy.codecs before Toy.alice toldFinal := by
  intro pre o info post e hlt
  have hpre : pre = toldOnce ∧ info = ⟨3, 2, 1⟩ := by
    have hl : pre.length < toldFinal.length := by rw [e]; simp
    have he : toldFinal[pre.length]? = some (.slot o info .finalized) := by rw [e]; simp
    have hp : pre = toldFinal.take pre.length := by rw [e]; simp
    rw [hp]
    generalize pre.length = n at *
    simp only [toldFinal, toldOnce, List.cons_append, List.nil_append, List.length_cons, List.length_nil] at hl
    match n, hl with
    | 0, _ | 1, _ | 2, _ | 3, _ | 4, _ | 5, _ => simp [toldFinal, toldOnce] at he
    | 6, _ => simp [toldFinal, toldOnce] at he; exact ⟨rfl, he.2.symm⟩
  obtain ⟨rfl, rfl⟩ := hpre
  have hF : lastFinal (alone toldOnce) = 0 := by decide +kernel
  refine ⟨fun h => by rw [hF] at h; omega, ?_⟩
  intro i k h1 h2 h3 h4 h5
  have e1 := ancestor_before h1
  have e2 := ancestor_before h2
  simp only at e1
  rw [hF] at h4
  refine ⟨fun hi => ?_, fun hi => toldOnce_told (by omega)⟩
  rw [hi, toldOnce_alone]; exact .inl ⟨plainOrders, ⟨3, 2, 1⟩, .confirmed, by simp [notifiedOnce], rfl⟩

/-- The finalized read finds it after slot 3 is finalized. -/
example : ∃ w x, Sys.run Toy.codecs allowAll toldFinal .empty = .ok w ∧ TakenBehind Toy.codecs allowAll toldFinal (tokenAcct Toy.alice 1 1) x ∧
    w.getAccount Toy.alice .finalized = x.toSolana w.token.mints 3 0 := by
  obtain ⟨w, h1, -⟩ := of_check (r := Sys.run Toy.codecs allowAll toldFinal .empty) (p := fun _ => true) (by decide +kernel)
  have hF : lastFinal (alone toldFinal) = 3 := by decide +kernel
  obtain ⟨x, h2, h3⟩ := C134_finalized Toy.codecs allowAll toldFinal w before Toy.alice (tokenAcct Toy.alice 1 1) 1 (by decide) before_le
    toldFinal_parents toldFinal_accepted h1 (by rw [hF]; omega)
    (by rw [hF]; exact toldOnce_newest (by decide +kernel) (by decide +kernel) (by decide +kernel)) toldFinal_onTime toldFinal_chain
    (by
      intro pre o post a e
      refine every_call (ops := alone toldFinal) (P := fun pre o => AtOnce o → submittedBy o = some a → a.pubkey = Toy.alice →
        lastFinal pre = 0) ?_ pre o post e
      rw [toldFinal_alone]
      intro n hn
      match n, hn with
      | 0, _ => intro _ _ _; decide +kernel
      | 1, _ | 2, _ | 3, _ | 4, _ | 5, _ | 6, _ => intro h; exact absurd h (by simp [notifiedOnce, AtOnce]))
    (by
      intro o ho a ha _ _ T T' hcl
      rcases toldFinal_accounts o ho a ha with rfl | rfl
      · rw [classify_mintAcct] at hcl; simp at hcl
      · rw [classify_tokenAcct] at hcl; simp at hcl)
    (by
      intro o ho a ha T x T' hcl
      rcases toldFinal_accounts o ho a ha with rfl | rfl
      · rw [classify_mintAcct] at hcl; cases hcl
        exact ⟨fun h => absurd h (by decide +kernel), id⟩
      · rw [classify_tokenAcct] at hcl; cases hcl
        exact ⟨fun _ y hy => by cases hy; exact .inl ⟨_, rfl⟩, fun h => by rw [getOrCreate_other _ (by decide)]; exact h⟩)
  rw [hF] at h3
  exact ⟨w, x, h1, h2, h3⟩

/-- The dispatcher is not transparent: the token store alone, given the same calls, does not find the state. -/
theorem C134_not_alone : ∃ ops w s, Sys.run Toy.codecs allowAll ops .empty = .ok w ∧
    TokenStore.run Toy.codecs (alone ops) .empty = .ok s ∧
    s.getAccount Toy.alice .confirmed = .ok none ∧ ∃ a, w.getAccount Toy.alice .confirmed = .ok (some a) := by
  obtain ⟨w, h1, h2⟩ := of_check (r := Sys.run Toy.codecs allowAll toldOnce .empty)
    (p := fun w => returned (w.getAccount Toy.alice .confirmed) Option.isSome) (by decide +kernel)
  obtain ⟨s, h3, h4⟩ := of_check (r := TokenStore.run Toy.codecs (alone toldOnce) .empty)
    (p := fun s : TokenStore => decide (s.getAccount Toy.alice .confirmed = .ok none)) (by decide +kernel)
  obtain ⟨r, h5, h6⟩ := of_check h2
  obtain ⟨a, rfl⟩ := Option.isSome_iff_exists.1 h6
  exact ⟨toldOnce, w, s, h1, h3, by simpa using h4, a, h5⟩

end LAM.Props
