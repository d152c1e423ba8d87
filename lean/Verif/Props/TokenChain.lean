import Verif.Lemmas.TokenStoreHist
import Verif.Props.TokenStore
/-!
# The token program store, unfinalized reads: C52, C53
-/
namespace LAM.Props
open Spec Token
open TokenStore (TOp)

/-! ## Which state a read shows -/

/-- **C52**, the full claim: a confirmed read shows the newest state submitted on the chain of the confirmed slot. -/
def C52_statement : Prop :=
  ∀ (X : Codecs) (ops : List TOp) (s : TokenStore) (par : Nat → Nat) (pk : Pubkey) (a : AccountData) (k : Nat),
    Unfinalized ops → TrueParents par ops → TokenStore.run X ops .empty = .ok s →
    (∀ a c, TOp.update a c ∈ ops → c ≠ .finalized → a.pubkey = pk → Parses X a) →
    NewestTrue ops par pk (confirmedOf ops) a k →
    ∃ x T T', classify X T a = .ok (some x, T') ∧ s.getAccount pk .confirmed = x.toSolana s.mints k 0

/-- **C52**. If every slot on the way was notified as processed after it had occurred, a confirmed read shows the newest
submitted state (in its slot: the first with the highest write version). -/
theorem C52_history_partial (X : Codecs) (ops : List TOp) (s : TokenStore) (par : Nat → Nat) (pk : Pubkey) (a : AccountData)
    (k : Nat) (hu : Unfinalized ops) (hp : TrueParents par ops) (hr : TokenStore.run X ops .empty = .ok s)
    (hok : ∀ a c, TOp.update a c ∈ ops → c ≠ .finalized → a.pubkey = pk → Parses X a)
    (hn : NewestTrue ops par pk (confirmedOf ops) a k)
    (hl : ∀ i, Ancestor par (confirmedOf ops) i → Ancestor par i k → i ≠ k → ParentKept X ops i) :
    ∃ x T T', classify X T a = .ok (some x, T') ∧ s.getAccount pk .confirmed = x.toSolana s.mints k 0 := by
  have hrec : ∀ k, Recorded X (submittedAt ops pk k) (stateAt s.processed k pk) := fun k => run_recorded ops hu hok hr
  obtain ⟨hsort, hpar⟩ := parents_of (R := fun k p => p = par k ∧ p < k) (fun σ info c h => hp σ info c h) hr
  have hkne := newest_submitted hn
  obtain ⟨x, h1, -, T, T', h2⟩ := newestTrue_on hrec (fun i hi hs ha => run_linked hu hp hr
    (hl i hi ha (by rintro rfl; exact hkne hs))) hn
  obtain ⟨r, h3⟩ := getAccounts_total (c := .confirmed) (fun k e p h hp => (hpar k e p h hp).2) [pk] (by simp) s.confirmedSlot
  rw [← run_confirmed ops hu hr] at h1
  exact ⟨x.account, T, T', h2, (getAccount_eq hsort pk (by simp) h3).1 x k h1⟩

/-- **C52**. If no state of `pk` was submitted on the chain of the confirmed slot, a confirmed read is a finalized read. -/
theorem C52_no_state (X : Codecs) (ops : List TOp) (s : TokenStore) (par : Nat → Nat) (pk : Pubkey)
    (hu : Unfinalized ops) (hp : TrueParents par ops) (hr : TokenStore.run X ops .empty = .ok s)
    (hok : ∀ a c, TOp.update a c ∈ ops → c ≠ .finalized → a.pubkey = pk → Parses X a)
    (hn : ∀ a k, ¬ NewestTrue ops par pk (confirmedOf ops) a k) :
    s.getAccount pk .confirmed = s.getAccount pk .finalized := by
  have hrec : ∀ k, Recorded X (submittedAt ops pk k) (stateAt s.processed k pk) := fun k => run_recorded ops hu hok hr
  obtain ⟨hsort, hpar⟩ := parents_of (R := fun k p => p = par k ∧ p < k) (fun σ info c h => hp σ info c h) hr
  obtain ⟨r, h3⟩ := getAccounts_total (c := .confirmed) (fun k e p h hp => (hpar k e p h hp).2) [pk] (by simp) s.confirmedSlot
  refine (getAccount_eq hsort pk (by simp) h3).2 ?_
  intro x k hx
  rw [Token.Newest, run_confirmed ops hu hr] at hx
  obtain ⟨a, ha, -⟩ := newestOn_true (X := X) (fun k e p h hp => (hpar k e p h hp).1) hrec hx
  exact hn a k ha

/-- **C52**. A confirmed read never shows a state from outside the chain of the confirmed slot: it shows a finalized state or
the newest state submitted on the chain. -/
theorem C52_never_from_fork (X : Codecs) (ops : List TOp) (s : TokenStore) (par : Nat → Nat) (pk : Pubkey)
    (hu : Unfinalized ops) (hp : TrueParents par ops) (hr : TokenStore.run X ops .empty = .ok s)
    (hok : ∀ a c, TOp.update a c ∈ ops → c ≠ .finalized → a.pubkey = pk → Parses X a) :
    s.getAccount pk .confirmed = s.getAccount pk .finalized ∨
    ∃ a k x T T', NewestTrue ops par pk (confirmedOf ops) a k ∧ classify X T a = .ok (some x, T') ∧
      s.getAccount pk .confirmed = x.toSolana s.mints k 0 := by
  have hrec : ∀ k, Recorded X (submittedAt ops pk k) (stateAt s.processed k pk) := fun k => run_recorded ops hu hok hr
  obtain ⟨hsort, hpar⟩ := parents_of (R := fun k p => p = par k ∧ p < k) (fun σ info c h => hp σ info c h) hr
  obtain ⟨r, h3⟩ := getAccounts_total (c := .confirmed) (fun k e p h hp => (hpar k e p h hp).2) [pk] (by simp) s.confirmedSlot
  obtain ⟨h4, h5⟩ := getAccount_eq hsort pk (c := .confirmed) (by simp) h3
  by_cases hx : ∃ x k, Token.Newest s.processed pk .confirmed s.confirmedSlot x k
  · obtain ⟨x, k, hx⟩ := hx
    right
    obtain ⟨a, h6, -, T, T', h7⟩ := newestOn_true (X := X) (fun k e p h hp => (hpar k e p h hp).1) hrec hx
    rw [run_confirmed ops hu hr] at h6
    exact ⟨a, k, x.account, T, T', h6, h7, h4 x k hx⟩
  · exact .inl (h5 (fun x k h => hx ⟨x, k, h⟩))

/-- **C52**, relative to the recorded links, in every reachable store with parents below their slots: confirmed reads show
the first state on the recorded chain of the confirmed slot, processed reads the state of the highest unconfirmed slot, and
both fall back to the finalized state. -/
theorem C52_recorded (X : Codecs) (ops : List TOp) (s : TokenStore) (pk : Pubkey)
    (hp : ∀ σ info c, TOp.slot σ info c ∈ ops → info.parent < info.slot) (hr : TokenStore.run X ops .empty = .ok s) :
    (∀ x k, NewestOn s.processed pk s.confirmedSlot x k → s.getAccount pk .confirmed = x.account.toSolana s.mints k 0) ∧
    ((∀ x k, ¬ NewestOn s.processed pk s.confirmedSlot x k) → s.getAccount pk .confirmed = s.getAccount pk .finalized) ∧
    (∀ x k, NewestProcessed s.processed pk s.confirmedSlot x k → s.getAccount pk .processed = x.account.toSolana s.mints k 0) ∧
    ((∀ x k, ¬ NewestProcessed s.processed pk s.confirmedSlot x k) → s.getAccount pk .processed = s.getAccount pk .finalized) := by
  obtain ⟨hsort, hpar⟩ := parents_of (R := fun k p => p < k) (fun σ info c h => hp σ info c h) hr
  obtain ⟨r, h3⟩ := getAccounts_total (c := .confirmed) hpar [pk] (by simp) s.confirmedSlot
  obtain ⟨r', h4⟩ := getAccounts_total (c := .processed) hpar [pk] (by simp) s.confirmedSlot
  exact ⟨(getAccount_eq hsort pk (by simp) h3).1, (getAccount_eq hsort pk (by simp) h3).2,
    (getAccount_eq hsort pk (by simp) h4).1, (getAccount_eq hsort pk (by simp) h4).2⟩

/-- A token account as submitted is classified as a token account that is not deleted. -/
theorem classify_tokenAcct (T : MintTable) (pk : Pubkey) (slot wv : Nat) :
    classify Toy.codecs T (tokenAcct pk slot wv) = .ok (some (.token ⟨.tokenProgram, false, pk, Toy.bob,
      (T.getOrCreate Toy.prog).1, 12, .frozen, some (Toy.prog2, 5), none, none, none⟩), (T.getOrCreate Toy.prog).2) := by
  refine (C46_token_iff Toy.codecs T (tokenAcct pk slot wv) .tokenProgram splAccount.pack ⟨by simp [tokenAcct, Toy.acct], rfl⟩ ⟨rfl, rfl⟩ _ _).2
    ⟨rfl, rfl, splAccount, C45_pack_is_layout.1 _ (by constructor <;> simp [splAccount]), ?_, rfl⟩
  constructor <;> simp [splAccount]

theorem parses_tokenAcct (pk : Pubkey) (slot wv : Nat) : Parses Toy.codecs (tokenAcct pk slot wv) :=
  ⟨.inl rfl, fun T => ⟨_, _, classify_tokenAcct T pk slot wv⟩⟩

/-- The slot before. -/
def before (k : Nat) : Nat := k - 1

/-- An update at slot 1; slots 1 to 3 notified as processed once, then slot 3 confirmed. -/
def notifiedOnce : List TOp :=
  [.init mintAcct, .update (tokenAcct Toy.alice 1 1) .processed, .slot plainOrders ⟨1, 0, 1⟩ .processed,
    .slot plainOrders ⟨2, 1, 1⟩ .processed, .slot plainOrders ⟨3, 2, 1⟩ .processed, .slot plainOrders ⟨3, 2, 1⟩ .confirmed]

/-- The same with slots 2 and 3 notified twice. -/
def notifiedTwice : List TOp :=
  [.init mintAcct, .update (tokenAcct Toy.alice 1 1) .processed, .slot plainOrders ⟨1, 0, 1⟩ .processed,
    .slot plainOrders ⟨2, 1, 1⟩ .processed, .slot plainOrders ⟨2, 1, 1⟩ .processed,
    .slot plainOrders ⟨3, 2, 1⟩ .processed, .slot plainOrders ⟨3, 2, 1⟩ .processed, .slot plainOrders ⟨3, 2, 1⟩ .confirmed]

theorem notifiedTwice_parents : TrueParents before notifiedTwice := by
  intro σ info c hm
  simp only [notifiedTwice, List.mem_cons, List.not_mem_nil, or_false, reduceCtorEq, false_or, TOp.slot.injEq] at hm
  rcases hm with ⟨-, rfl, -⟩ | ⟨-, rfl, -⟩ | ⟨-, rfl, -⟩ | ⟨-, rfl, -⟩ | ⟨-, rfl, -⟩ | ⟨-, rfl, -⟩ <;> simp [before]

/-- The full claim is false: a slot whose first notice is the notification itself loses its parent. -/
theorem C52_refuted : ¬ C52_statement := by
  intro h
  have hr : TokenStore.run Toy.codecs notifiedOnce .empty = .ok (okStore (TokenStore.run Toy.codecs notifiedOnce .empty)) := by
    decide +kernel
  obtain ⟨x, T, T', hx, hread⟩ := h Toy.codecs notifiedOnce _ before Toy.alice (tokenAcct Toy.alice 1 1) 1
    (by intro σ info; simp [notifiedOnce]) (by
      intro σ info c hm
      simp only [notifiedOnce, List.mem_cons, List.not_mem_nil, or_false, reduceCtorEq, false_or, TOp.slot.injEq] at hm
      rcases hm with ⟨-, rfl, -⟩ | ⟨-, rfl, -⟩ | ⟨-, rfl, -⟩ | ⟨-, rfl, -⟩ <;> simp [before]) hr
    (by
      intro a c hm hc hpk
      simp only [notifiedOnce, List.mem_cons, List.not_mem_nil, or_false, reduceCtorEq, TOp.update.injEq, false_or] at hm
      rw [hm.1]; exact parses_tokenAcct _ _ _)
    (.up (by decide +kernel) (.up (by decide +kernel) (.here ⟨[], [], by decide +kernel, by simp, by simp⟩)))
  rw [classify_tokenAcct] at hx
  have hx : x = .token ⟨.tokenProgram, false, Toy.alice, Toy.bob, (T.getOrCreate Toy.prog).1, 12, .frozen, some (Toy.prog2, 5), none, none, none⟩ := by
    simp only [Run.ok.injEq, Prod.mk.injEq, Option.some.injEq] at hx; exact hx.1.symm
  have hnone : (okStore (TokenStore.run Toy.codecs notifiedOnce .empty)).getAccount Toy.alice .confirmed = .ok none := by
    decide +kernel
  rw [hnone, hx] at hread
  simp only [ProgramAccount.toSolana, tokenToSolana, Bool.false_eq_true, if_false] at hread
  cases hm : (okStore (TokenStore.run Toy.codecs notifiedOnce .empty)).mints.find (T.getOrCreate Toy.prog).1 <;> simp [hm] at hread

example : ∃ x T T', classify Toy.codecs T (tokenAcct Toy.alice 1 1) = .ok (some x, T') ∧
    (okStore (TokenStore.run Toy.codecs notifiedTwice .empty)).getAccount Toy.alice .confirmed =
      x.toSolana (okStore (TokenStore.run Toy.codecs notifiedTwice .empty)).mints 1 0 := by
  have hr : TokenStore.run Toy.codecs notifiedTwice .empty = .ok (okStore (TokenStore.run Toy.codecs notifiedTwice .empty)) := by
    decide +kernel
  have hanc : ∀ s i, Ancestor before s i → i ≤ s := by
    intro s i h
    induction h with
    | here => exact Nat.le_refl _
    | up _ ih => simp [before] at ih; omega
  refine C52_history_partial Toy.codecs notifiedTwice _ before Toy.alice (tokenAcct Toy.alice 1 1) 1
    (by intro σ info; simp [notifiedTwice]) notifiedTwice_parents hr
    (by
      intro a c hm hc hpk
      simp only [notifiedTwice, List.mem_cons, List.not_mem_nil, or_false, reduceCtorEq, TOp.update.injEq, false_or] at hm
      rw [hm.1]; exact parses_tokenAcct _ _ _)
    (.up (by decide +kernel) (.up (by decide +kernel) (.here ⟨[], [], by decide +kernel, by simp, by simp⟩))) ?_
  intro i h1 h2 h3
  have e1 := hanc _ _ h1
  have e2 := hanc _ _ h2
  have hc : confirmedOf notifiedTwice = 3 := by decide +kernel
  have : i = 2 ∨ i = 3 := by omega
  rcases this with rfl | rfl
  · exact ⟨notifiedTwice.take 4, plainOrders, ⟨2, 1, 1⟩, notifiedTwice.drop 5, rfl, rfl,
      .inl ⟨plainOrders, ⟨2, 1, 1⟩, .processed, by simp [notifiedTwice], rfl⟩⟩
  · exact ⟨notifiedTwice.take 6, plainOrders, ⟨3, 2, 1⟩, notifiedTwice.drop 7, rfl, rfl,
      .inl ⟨plainOrders, ⟨3, 2, 1⟩, .processed, by simp [notifiedTwice], rfl⟩⟩

example : ∃ x k, NewestOn (okStore (TokenStore.run Toy.codecs notifiedTwice .empty)).processed Toy.alice 3 x k := by
  obtain ⟨e3, he3, hx3, hp3⟩ : ∃ e, BMap.find (okStore (TokenStore.run Toy.codecs notifiedTwice .empty)).processed 3 = some e ∧
      e.accounts.find Toy.alice = none ∧ e.parent = some 2 :=
    ⟨_, Option.some_get (by decide +kernel) |>.symm, by decide +kernel, by decide +kernel⟩
  obtain ⟨e2, he2, hx2, hp2⟩ : ∃ e, BMap.find (okStore (TokenStore.run Toy.codecs notifiedTwice .empty)).processed 2 = some e ∧
      e.accounts.find Toy.alice = none ∧ e.parent = some 1 :=
    ⟨_, Option.some_get (by decide +kernel) |>.symm, by decide +kernel, by decide +kernel⟩
  obtain ⟨e, he, x, hx⟩ : ∃ e, BMap.find (okStore (TokenStore.run Toy.codecs notifiedTwice .empty)).processed 1 = some e ∧
      ∃ x, e.accounts.find Toy.alice = some x :=
    ⟨_, Option.some_get (by decide +kernel) |>.symm, _, Option.some_get (by decide +kernel) |>.symm⟩
  exact ⟨x, 1, .up he3 hx3 hp3 (.up he2 hx2 hp2 (.here he hx))⟩

example : (okStore (TokenStore.run Toy.codecs notifiedTwice .empty)).getAccount Toy.bob .confirmed =
    (okStore (TokenStore.run Toy.codecs notifiedTwice .empty)).getAccount Toy.bob .finalized := by
  refine C52_no_state Toy.codecs notifiedTwice _ before Toy.bob (by intro σ info; simp [notifiedTwice]) notifiedTwice_parents
    (by decide +kernel) ?_ ?_
  · intro a c hm hc hpk
    simp only [notifiedTwice, List.mem_cons, List.not_mem_nil, or_false, reduceCtorEq, TOp.update.injEq, false_or] at hm
    rw [hm.1]; exact parses_tokenAcct _ _ _
  · intro a k h
    refine newest_submitted h ?_
    have : (tokenAcct Toy.alice 1 1).pubkey ≠ Toy.bob := by decide +kernel
    simp [submittedAt, notifiedTwice, this]

/-! ## Termination -/

/-- **C53**, the full claim: reads end after every history. -/
def C53_statement : Prop :=
  ∀ (X : Codecs) (ops : List TOp) (s : TokenStore), TokenStore.run X ops .empty = .ok s →
    (∀ pk c, (s.getAccount pk c).Ends) ∧ ∀ σ program filters c, (s.getProgramAccounts X σ program filters c).Ends

/-- **C53**. Reads end if every notified slot has an older parent. -/
theorem C53_reads_end_partial (X : Codecs) (ops : List TOp) (s : TokenStore)
    (hp : ∀ σ info c, TOp.slot σ info c ∈ ops → info.parent < info.slot) (hr : TokenStore.run X ops .empty = .ok s) :
    (∀ pk c, (s.getAccount pk c).Ends) ∧ ∀ σ program filters c, (s.getProgramAccounts X σ program filters c).Ends := by
  obtain ⟨-, hpar⟩ := parents_of (R := fun k p => p < k) (fun σ info c h => hp σ info c h) hr
  have hend : ∀ c : Commitment, c ≠ .finalized → ∀ pks, (s.processed.getAccounts pks c s.confirmedSlot).Ends := by
    intro c hc pks
    obtain ⟨r, h⟩ := getAccounts_total hpar pks hc s.confirmedSlot
    rw [h]; exact Run.ends_ok _
  exact ⟨fun pk c => ends_getAccount (fun hc => hend c hc _), fun σ program filters c => ends_getProgramAccounts (hend c)⟩

/-- **C53**. Finalized reads, submissions and slot notifications always end. -/
theorem C53_other_calls_end (X : Codecs) (s : TokenStore) :
    (∀ pk, (s.getAccount pk .finalized).Ends) ∧
    (∀ σ program filters, (s.getProgramAccounts X σ program filters .finalized).Ends) ∧
    (∀ a c, (s.updateAccount X a c).Ends) ∧ (∀ a, (s.initAccount X a).Ends) ∧ ∀ σ info c, (s.processSlot σ info c).Ends :=
  ⟨fun _ => ends_getAccount (fun h => absurd rfl h), fun _ _ _ => ends_getProgramAccounts (fun h => absurd rfl h),
    ends_updateAccount X s, fun a => by rw [init_eq_update]; exact (ends_updateAccount X s a _).bind (fun _ _ => Run.ends_ok _),
    ends_processSlot s⟩

/-- Slot 0 notified twice with itself as parent. -/
def ownParent : List TOp := [.slot plainOrders ⟨0, 0, 0⟩ .processed, .slot plainOrders ⟨0, 0, 0⟩ .processed]

/-- The full claim is false: a slot recorded as its own parent makes confirmed reads of unknown keys loop. -/
theorem C53_refuted : ¬ C53_statement := by
  intro h
  have hr : TokenStore.run Toy.codecs ownParent .empty = .ok (okStore (TokenStore.run Toy.codecs ownParent .empty)) := by
    decide +kernel
  refine (h Toy.codecs ownParent _ hr).1 Toy.alice .confirmed ?_
  decide +kernel

/-- The loop is endless: no number of rounds suffices, for any key. -/
theorem C53_endless (pk : Pubkey) (fuel : Nat) :
    ProcStore.getConfirmed fuel (okStore (TokenStore.run Toy.codecs ownParent .empty)).processed [pk] [none] 0 = .diverge := by
  refine getConfirmed_cycle fuel (V := [0]) (by simp) (by simp) ?_
  intro v hv
  simp at hv; subst hv
  refine ⟨⟨[], some 0⟩, 0, by decide +kernel, rfl, by simp, rfl⟩

/-- **C53**. A read loops only if it loops with every bound on the number of rounds. -/
theorem C53_diverge_is_endless (P : ProcStore) (pks : List Pubkey) (confirmed : Nat)
    (h : P.getAccounts pks .confirmed confirmed = .diverge) (fuel : Nat) :
    ProcStore.getConfirmed fuel P pks (List.replicate pks.length none) confirmed = .diverge :=
  getConfirmed_diverge (by simp) h fuel

example : (okStore (TokenStore.run Toy.codecs notifiedTwice .empty)).getAccount Toy.bob .confirmed ≠ .diverge := by
  exact (C53_reads_end_partial Toy.codecs notifiedTwice _ (fun σ info c h => (notifiedTwice_parents σ info c h).2)
    (by decide +kernel)).1 _ _

end LAM.Props
