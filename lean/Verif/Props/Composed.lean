import Verif.Lemmas.Composed
import Verif.Props.StoreQueries
import Verif.Props.TokenStore
/-!
# The dispatcher around the token store and the in-memory store: C100, C101, C102
-/
namespace LAM.Props
open Spec Token Composed

/-! ## The composition is the dispatcher of `Model/Dispatch` -/

/-- Either kind of storage. -/
abbrev AnyStore := TokenStore ⊕ Store

/-- The calls of the two storages.  A call that does not return is left out by answering something; no theorem is about that. -/
def concrete (X : Codecs) (F : Filters) (σ : Orders) (o : Store.Order) (busy : Nat → Bool) : Dispatch.Behaviour AnyStore where
  call _ s k := match s, k with
    | .inl t, .update a c => match t.updateAccount X a c with | .ok (b, t') => (.inl t', b) | _ => (s, false)
    | .inl t, .init a => match t.initAccount X a with | .ok t' => (.inl t', ()) | _ => (s, ())
    | .inl t, .getAccount pk c => match t.getAccount pk c with | .ok r => (s, .ok r) | _ => (s, .ok none)
    | .inl t, .gpa p fs c => match t.getProgramAccounts X σ p fs c with | .ok r => (s, r) | _ => (s, .ok [])
    | .inl t, .process info c => match t.processSlot σ info c with | .ok (l, t') => (.inl t', l) | _ => (s, [])
    | .inr m, .update a c => match m.updateAccount F a c with | .ok (m', b) => (.inr m', b) | _ => (s, false)
    | .inr m, .init a => match m.initializeOrUpdate F a with | .ok m' => (.inr m', ()) | _ => (s, ())
    | .inr m, .getAccount pk c => match m.getAccount pk c with | .ok r => (s, .ok r) | _ => (s, .ok none)
    | .inr m, .gpa p fs c => match m.getProgramAccounts X F busy p fs c with | .ok r => (s, r) | _ => (s, .ok [])
    | .inr m, .process info c => match m.processSlotData F o info c with | .ok (m', l) => (.inr m', l) | _ => (s, [])
    | _, .createSnapshot _ => (s, .ok [])
    | _, .load _ _ => (s, .ok ())

/-- Storage 1, the token store, is registered for both token programs; storage 0 is the default. -/
def tokenTable : Dispatch.Table := ⟨[(Spl.tokenId, 1), (Spl.token2022Id, 1)], 0⟩

/-- The storages of the dispatcher are those of the composition. -/
def Same (d : Dispatch.World AnyStore) (w : Sys) : Prop := d.state 1 = .inl w.token ∧ d.state 0 = .inr w.main

theorem find_token {p : Pubkey} (h : p = Spl.tokenId ∨ p = Spl.token2022Id) : tokenTable.find p = some 1 := by
  rcases h with rfl | rfl <;> decide +kernel

theorem find_other {p : Pubkey} (h : ¬ (p = Spl.tokenId ∨ p = Spl.token2022Id)) : tokenTable.find p = none := by
  have h1 : ¬ Spl.tokenId = p := fun e => h (.inl e.symm)
  have h2 : ¬ Spl.token2022Id = p := fun e => h (.inr e.symm)
  simp [Dispatch.Table.find, tokenTable, h1, h2]

theorem C100_is_the_dispatcher (X : Codecs) (F : Filters) (σ : Orders) (o : Store.Order) (busy : Nat → Bool)
    (d : Dispatch.World AnyStore) (w : Sys) (h : Same d w) :
    (∀ a c w' b, w.update X F a c = .ok (w', b) →
      Same (Dispatch.update (concrete X F σ o busy) tokenTable a c d).1 w' ∧ (Dispatch.update (concrete X F σ o busy) tokenTable a c d).2 = b) ∧
    (∀ a w', w.init X F a = .ok w' → Same (Dispatch.init (concrete X F σ o busy) tokenTable a d).1 w') ∧
    (∀ pk c r, w.getAccount pk c = .ok r →
      Same (Dispatch.getAccount (concrete X F σ o busy) tokenTable pk c d).1 w ∧
      (Dispatch.getAccount (concrete X F σ o busy) tokenTable pk c d).2 = .ok r) ∧
    (∀ p fs c r, w.getProgramAccounts X F σ busy p fs c = .ok r →
      Same (Dispatch.getProgramAccounts (concrete X F σ o busy) tokenTable p fs c d).1 w ∧
      (Dispatch.getProgramAccounts (concrete X F σ o busy) tokenTable p fs c d).2 = r) ∧
    ∀ info c w' l, w.slot F ⟨σ, σ, o⟩ info c = .ok (w', l) →
      Same (Dispatch.process (concrete X F σ o busy) tokenTable info c d).1 w' ∧
      (Dispatch.process (concrete X F σ o busy) tokenTable info c d).2 = l := by
  obtain ⟨h1, h0⟩ := h
  refine ⟨fun a c w' b hu => ?_, fun a w' hi => ?_, fun pk c r hg => ?_, fun p fs c r hg => ?_, fun info c w' l hs => ?_⟩
  · simp only [Sys.update, Run.bind_eq_ok] at hu
    obtain ⟨⟨b1, t1⟩, e1, hu⟩ := hu
    simp only [Dispatch.update, tokenTable, Dispatch.updateLoop, Dispatch.ask, concrete, h1, e1]
    cases b1 with
    | true =>
      simp only [if_true, Run.pure_eq, Run.ok.injEq, Prod.mk.injEq] at hu
      obtain ⟨rfl, rfl⟩ := hu
      simp [Same, h0]
    | false =>
      simp only [Bool.false_eq_true, if_false, Run.bind_eq_ok] at hu
      obtain ⟨⟨b2, t2⟩, e2, hu⟩ := hu
      simp only [Bool.false_eq_true, if_false, if_true, e2]
      cases b2 with
      | true =>
        simp only [if_true, Run.pure_eq, Run.ok.injEq, Prod.mk.injEq] at hu
        obtain ⟨rfl, rfl⟩ := hu
        simp [Same, h0]
      | false =>
        simp only [Bool.false_eq_true, if_false, Run.bind_eq_ok, Run.pure_eq, Run.ok.injEq, Prod.mk.injEq] at hu
        obtain ⟨⟨m, b3⟩, e3, rfl, rfl⟩ := hu
        simp [Same, h0, e3]
  · by_cases ho : a.account.owner = Spl.tokenId ∨ a.account.owner = Spl.token2022Id
    · have hf := find_token ho
      rw [Sys.init, if_pos ho] at hi
      simp only [Run.bind_eq_ok, Run.pure_eq, Run.ok.injEq] at hi
      obtain ⟨t, e, rfl⟩ := hi
      simp [Dispatch.init, hf, Dispatch.ask, concrete, h1, e, Same, h0]
    · have hf := find_other ho
      rw [Sys.init, if_neg ho] at hi
      simp only [Run.bind_eq_ok, Run.pure_eq, Run.ok.injEq] at hi
      obtain ⟨t, e, rfl⟩ := hi
      have : tokenTable.default = 0 := rfl
      simp [Dispatch.init, hf, this, Dispatch.ask, concrete, h1, e, Same, h0]
  · simp only [Sys.getAccount] at hg
    simp [Dispatch.getAccount, tokenTable, Dispatch.getLoop, Dispatch.ask, concrete, h1, hg, Same, h0]
  · by_cases ho : p = Spl.tokenId ∨ p = Spl.token2022Id
    · have hf := find_token ho
      rw [Sys.getProgramAccounts, if_pos ho] at hg
      simp [Dispatch.getProgramAccounts, hf, Dispatch.ask, concrete, h1, hg, Same, h0]
    · have hf := find_other ho
      rw [Sys.getProgramAccounts, if_neg ho] at hg
      have : tokenTable.default = 0 := rfl
      simp [Dispatch.getProgramAccounts, hf, this, Dispatch.ask, concrete, h1, hg, Same, h0]
  · simp only [Sys.slot, Run.bind_eq_ok, Run.pure_eq, Run.ok.injEq, Prod.mk.injEq] at hs
    obtain ⟨⟨l1, t1⟩, e1, ⟨l2, t2⟩, e2, ⟨m, l3⟩, e3, rfl, rfl⟩ := hs
    simp [Dispatch.process, tokenTable, Dispatch.processLoop, Dispatch.ask, concrete, h1, e1, e2, h0, e3, Same]

/-! ## C100: updates of accounts of other programs -/

/-- **C100**, the full claim: an update of an account that no token program owns reaches the default storage. -/
def C100_statement : Prop :=
  ∀ (X : Codecs) (F : Filters) (ops : List SOp) (w w' : Sys) (a : AccountData) (c : Commitment) (b : Bool),
    Sys.run X F ops .empty = .ok w → a.account.owner ≠ Spl.tokenId → a.account.owner ≠ Spl.token2022Id →
    w.update X F a c = .ok (w', b) → w.main.updateAccount F a c = .ok (w'.main, b)

/-- The storages after `aMint` and the token account of `alice` were loaded. -/
def loadedSys : Sys := ⟨loaded, .empty⟩

theorem loadedSys_eq : Sys.run Toy.codecs allowAll [.init mintAcct, .init (tokenAcct Toy.alice 1 1)] .empty = .ok loadedSys := by
  have h := loaded_eq
  simp only [TokenStore.run, TokenStore.step, Run.bind_eq_ok, Run.ok.injEq] at h
  obtain ⟨s1, e1, s2, e2, h2⟩ := h
  rw [h2] at e2
  have o1 : mintAcct.account.owner = Spl.tokenId ∨ mintAcct.account.owner = Spl.token2022Id := by decide +kernel
  have o2 : (tokenAcct Toy.alice 1 1).account.owner = Spl.tokenId ∨ (tokenAcct Toy.alice 1 1).account.owner = Spl.token2022Id := .inl rfl
  have f1 : Sys.init Toy.codecs allowAll .empty mintAcct = .ok ⟨s1, .empty⟩ := by
    simp only [Sys.init, if_pos o1, Sys.empty, e1, Run.ok_bind, Run.pure_eq]
  have f2 : Sys.init Toy.codecs allowAll ⟨s1, .empty⟩ (tokenAcct Toy.alice 1 1) = .ok loadedSys := by
    simp only [Sys.init, if_pos o2, e2, Run.ok_bind, Run.pure_eq, loadedSys]
  simp only [Sys.run, Sys.step, f1, Run.ok_bind, f2]

/-- If the token store takes an update, the default storage stays as it is. -/
theorem swallowed {a : AccountData} (hs : allowAll.satisfies a = true)
    (h : ∃ t, loaded.updateAccount Toy.codecs a .finalized = .ok (true, t)) :
    ∃ w', loadedSys.update Toy.codecs allowAll a .finalized = .ok (w', true) ∧
      ¬ loadedSys.main.updateAccount allowAll a .finalized = .ok (w'.main, true) := by
  obtain ⟨t, ht⟩ := h
  refine ⟨⟨t, .empty⟩, by simp [Sys.update, loadedSys, ht], fun e => ?_⟩
  have h1 : ∃ m, Store.empty.updateAccount allowAll a .finalized = .ok (m, true) ∧ m.accounts.length = 1 := by
    simp [Store.updateAccount, hs, Store.maybeUpdateSlotStatus, Store.empty, Store.updateVacant, Store.addAccountOwner, Store.addIndexToSlot]
  obtain ⟨m, h1, h2⟩ := h1
  rw [show loadedSys.main = Store.empty from rfl, h1] at e
  simp only [Run.ok.injEq, Prod.mk.injEq] at e
  rw [e.1] at h2
  simp [Store.empty] at h2

theorem of_true {s : TokenStore} {a : AccountData}
    (h : (match s.updateAccount Toy.codecs a .finalized with | .ok (true, _) => true | _ => false) = true) :
    ∃ t, s.updateAccount Toy.codecs a .finalized = .ok (true, t) := by
  generalize s.updateAccount Toy.codecs a .finalized = r at *
  split at h
  · exact ⟨_, rfl⟩
  · cases h

/-- The claim is false: when an account leaves the token program, the token store takes the update as a deletion. -/
theorem C100_refuted : ¬ C100_statement := by
  intro h
  obtain ⟨w', h1, h2⟩ := swallowed (a := Toy.acct Toy.alice Toy.prog 5 2 2) rfl (of_true (by decide +kernel))
  exact h2 (h _ _ _ _ _ _ _ _ loadedSys_eq (by decide) (by decide) h1)

/-- It is also false of an account the token store never saw: four bytes shared with the key of a token account are enough. -/
theorem C100_refuted_twin : ∃ (ops : List SOp) (w w' : Sys) (a : AccountData),
    (∀ o ∈ ops, ∀ x, submitted o = some x → x.pubkey ≠ a.pubkey) ∧ a.account.owner = Toy.prog ∧
    Sys.run Toy.codecs allowAll ops .empty = .ok w ∧ w.update Toy.codecs allowAll a .finalized = .ok (w', true) ∧
    ¬ w.main.updateAccount allowAll a .finalized = .ok (w'.main, true) := by
  obtain ⟨w', h1, h2⟩ := swallowed (a := Toy.acct aliceTwin Toy.prog 5 2 2) rfl (of_true (by decide +kernel))
  refine ⟨_, _, w', _, ?_, rfl, loadedSys_eq, h1, h2⟩
  intro o ho x hx
  simp at ho
  rcases ho with rfl | rfl <;> (simp only [submitted, Option.some.injEq] at hx; subst hx; decide +kernel)

/-- What a history does to the default storage, if it has nothing to do with tokens that look like `pk`. -/
theorem default_gets {X : Codecs} {F : Filters} {pk : Pubkey} (ops : List SOp) {n : Nat} {w w' : Sys} {slots orig : List TokenAccount}
    (hi : Inv (Apart pk) n w.token slots orig) (hf : Free pk w.token) (hn : n + 2 * ops.length < 2 ^ 31)
    (ha : ∀ o ∈ ops, ∀ a, submitted o = some a → Aside X pk a) (hr : Sys.run X F ops w = .ok w') :
    (∃ n' slots' orig', Inv (Apart pk) n' w'.token slots' orig' ∧ n' ≤ n + 2 * ops.length) ∧ Free pk w'.token ∧
    ∃ h, w.main.run h = .ok w'.main ∧ h.Sublist (ops.map (direct F)) ∧
      h.filter (About pk ·) = (ops.map (direct F)).filter (About pk ·) := by
  induction ops generalizing w n slots orig with
  | nil =>
    simp [Sys.run] at hr; subst hr
    exact ⟨⟨n, slots, orig, hi, by simp⟩, hf, [], rfl, by simp, by simp⟩
  | cons o ops ih =>
    simp only [Sys.run, Run.bind_eq_ok] at hr
    obtain ⟨w1, h1, hr⟩ := hr
    simp only [List.length_cons] at hn
    -- what the first call does
    have key : (∃ slots1 orig1, Inv (Apart pk) (n + 2) w1.token slots1 orig1) ∧ Free pk w1.token ∧
        ∃ h, w.main.run h = .ok w1.main ∧ h.Sublist [direct F o] ∧ h.filter (About pk ·) = [direct F o].filter (About pk ·) := by
      have hao := ha o (by simp)
      cases o with
      | update a c =>
        have haa := hao a rfl
        simp only [Sys.step, Sys.update, Run.bind_eq_ok, Run.pure_eq, Run.ok.injEq] at h1
        obtain ⟨⟨w2, b⟩, ⟨⟨b1, t1⟩, e1, h1⟩, rfl⟩ := h1
        obtain ⟨sl1, or1, i1⟩ := update_inv hi (by omega) (fun x T' hx => classify_apart haa hx) e1
        have f1 := update_free haa hf e1
        have notme : a.pubkey = pk → b1 = false ∧ t1 = w.token := by
          rintro rfl
          have : ¬ (a.account.owner = Spl.tokenId ∨ a.account.owner = Spl.token2022Id) := fun ho => (haa ho).1 rfl
          rw [not_or] at this
          rw [update_rejected hi hf this.1 this.2] at e1
          simp at e1; exact ⟨e1.1, e1.2.symm⟩
        cases b1 with
        | true =>
          simp at h1; obtain ⟨rfl, rfl⟩ := h1
          have : ¬ a.pubkey = pk := fun e => by simpa using (notme e).1
          exact ⟨⟨sl1, or1, i1.mono (by omega)⟩, f1, [], rfl, by simp, by simp [direct, About, this]⟩
        | false =>
          simp only [Bool.false_eq_true, if_false, Run.bind_eq_ok] at h1
          obtain ⟨⟨b2, t2⟩, e2, h1⟩ := h1
          obtain ⟨sl2, or2, i2⟩ := update_inv i1 (by omega) (fun x T' hx => classify_apart haa hx) e2
          have f2 := update_free haa f1 e2
          cases b2 with
          | true =>
            simp at h1; obtain ⟨rfl, rfl⟩ := h1
            have : ¬ a.pubkey = pk := by
              intro e
              obtain ⟨-, rfl⟩ := notme e
              rw [e1] at e2; simp at e2
            exact ⟨⟨sl2, or2, i2⟩, f2, [], rfl, by simp, by simp [direct, About, this]⟩
          | false =>
            simp only [Bool.false_eq_true, if_false, Run.bind_eq_ok, Run.ok.injEq, Prod.mk.injEq] at h1
            obtain ⟨⟨m, b3⟩, e3, rfl, rfl⟩ := h1
            exact ⟨⟨sl2, or2, i2⟩, f2, [.update F a c], by simp [Store.run, Store.step, e3], by simp [direct], by simp [direct]⟩
      | init a =>
        have haa := hao a rfl
        simp only [Sys.step, Sys.init] at h1
        split at h1
        · rename_i ho
          simp only [Run.bind_eq_ok, Run.pure_eq, Run.ok.injEq, init_eq_update] at h1
          obtain ⟨t, ⟨⟨b, t'⟩, e1, rfl⟩, rfl⟩ := h1
          obtain ⟨sl1, or1, i1⟩ := update_inv hi (by omega) (fun x T' hx => classify_apart haa hx) e1
          have : ¬ a.pubkey = pk := fun e => (haa ho).1 (by rw [e])
          exact ⟨⟨sl1, or1, i1.mono (by omega)⟩, update_free haa hf e1, [], rfl, by simp, by simp [direct, About, this]⟩
        · simp only [Run.bind_eq_ok, Run.pure_eq, Run.ok.injEq, Store.initializeOrUpdate] at h1
          obtain ⟨m, ⟨⟨m', b⟩, e1, rfl⟩, rfl⟩ := h1
          exact ⟨⟨slots, orig, hi.mono (by omega)⟩, hf, [.update F a .finalized], by simp [Store.run, Store.step, e1], by simp [direct],
            by simp [direct]⟩
      | slot o info c =>
        simp only [Sys.step, Sys.slot, Run.bind_eq_ok, Run.pure_eq, Run.ok.injEq] at h1
        obtain ⟨⟨w2, l⟩, ⟨⟨l1, t1⟩, e1, ⟨l2, t2⟩, e2, ⟨m, l3⟩, e3, h1⟩, rfl⟩ := h1
        simp only [Prod.mk.injEq] at h1
        obtain ⟨rfl, rfl⟩ := h1
        obtain ⟨sl1, or1, i1⟩ := slot_inv hi (by omega) e1
        obtain ⟨sl2, or2, i2⟩ := slot_inv i1 (by omega) e2
        exact ⟨⟨sl2, or2, i2.mono (by omega)⟩, slot_free i1 (slot_free hi hf e1) e2, [.slot F o.main info c],
          by simp [Store.run, Store.step, e3], by simp [direct], by simp [direct]⟩
    obtain ⟨⟨sl1, or1, i1⟩, f1, h, g1, g2, g3⟩ := key
    obtain ⟨⟨n', sl', or', i', hn'⟩, f', h', k1, k2, k3⟩ := ih i1 f1 (by omega) (fun o ho => ha o (by simp [ho])) hr
    refine ⟨⟨n', sl', or', i', by simp; omega⟩, f', h ++ h', ?_, ?_, ?_⟩
    · rw [Store.run_append, g1]; exact k1
    · exact (g2.append k2)
    · rw [List.filter_append, g3, k3, List.map_cons, ← List.filter_append, List.singleton_append]

/-- **C100 (partial)**. If nothing looking like `pk` was submitted for a token program, the default storage is in the state that the
updates of `pk` and the slot notifications made to it, all of them and in order, among some of the other calls; and the next update
of `pk` is passed on to it.  Missing: accounts that a token program owned before, that share the first four bytes of their key with an account
of a token program, or that are named as a mint. -/
theorem C100_default_partial (X : Codecs) (F : Filters) (ops : List SOp) (w : Sys) (pk : Pubkey) (hn : 2 * ops.length < 2 ^ 31)
    (hr : Sys.run X F ops .empty = .ok w) (ha : ∀ o ∈ ops, ∀ a, submitted o = some a → Aside X pk a) :
    (∃ h, Store.empty.run h = .ok w.main ∧ h.Sublist (ops.map (direct F)) ∧
      h.filter (About pk ·) = (ops.map (direct F)).filter (About pk ·)) ∧
    ∀ a c, a.pubkey = pk → a.account.owner ≠ Spl.tokenId → a.account.owner ≠ Spl.token2022Id →
      ∃ m b, w.main.updateAccount F a c = .ok (m, b) ∧ w.update X F a c = .ok (⟨w.token, m⟩, b) := by
  obtain ⟨⟨n', sl, or, hi, -⟩, hf, h, h1, h2, h3⟩ :=
    default_gets ops (w := .empty) (inv_empty _) (free_empty pk) (by omega) ha hr
  refine ⟨⟨h, h1, h2, h3⟩, ?_⟩
  rintro a c rfl o1 o2
  obtain ⟨s, e1, e2, -⟩ := C11_never_panics_always_returns h
  have e1 := e1.symm.trans h1
  simp only [Run.ok.injEq] at e1
  subst e1
  obtain ⟨⟨m, b⟩, e⟩ := e2 F a c
  refine ⟨m, b, e, ?_⟩
  simp [Sys.update, update_rejected hi hf o1 o2, e]

theorem submissions_about (pk : Pubkey) (h : List Op) : submissions pk h = submissions pk (h.filter (About pk ·)) := by
  induction h with
  | nil => rfl
  | cons o h ih =>
    rw [← List.singleton_append, submissions_append, List.filter_append, submissions_append, ← ih]
    congr 1
    cases o with
    | slot => rfl
    | update F a c => by_cases e : a.pubkey = pk <;> simp [submissions, About, e]

/-- A history with a mint and a token account, and updates of an account of another program. -/
def mixedCalls : List SOp := [.init mintAcct, .init (tokenAcct Toy.alice 1 1), .update (Toy.acct Toy.bob Toy.prog 5 2 2) .processed,
  .slot ⟨plainOrders, plainOrders, .asIs⟩ ⟨2, 1, 0⟩ .finalized]

theorem mixed_aside : ∀ o ∈ mixedCalls, ∀ a, submitted o = some a → Aside Toy.codecs Toy.bob a := by
  have hb : ∀ a : AccountData, a.account.data.data Toy.codecs = .ok splAccount.pack → prefix4 a.pubkey ≠ prefix4 Toy.bob →
      Aside Toy.codecs Toy.bob a := by
    intro a h1 h2 _
    refine ⟨h2, fun bs sa e hl => ?_⟩
    rw [h1] at e; cases e
    have e1 := (Spl.unpackAccount_iff _ _).2 hl
    have e2 : Spl.unpackAccount splAccount.pack = some splAccount := by decide +kernel
    rw [e2] at e1; cases e1
    decide +kernel
  intro o ho a hs
  simp only [mixedCalls, List.mem_cons, List.not_mem_nil, or_false] at ho
  rcases ho with rfl | rfl | rfl | rfl
  · simp only [submitted, Option.some.injEq] at hs; subst hs
    intro _
    refine ⟨by decide +kernel, fun bs sa e hl => ?_⟩
    have hlen : bs.length = 82 := by
      have h : (do return (← mintAcct.account.data.data Toy.codecs).length : Run Nat) = .ok 82 := by decide +kernel
      rw [e] at h; simpa using h
    have := hl.length
    omega
  · simp only [submitted, Option.some.injEq] at hs; subst hs
    exact hb _ (by decide +kernel) (by decide +kernel)
  · simp only [submitted, Option.some.injEq] at hs; subst hs
    intro h; exact absurd h (by decide +kernel)
  · cases hs

/-- The call returned something that satisfies `p`. -/
def returned {α : Type} (r : Run α) (p : α → Bool) : Bool := match r with | .ok x => p x | _ => false

theorem of_check {α : Type} {p : α → Bool} {r : Run α} (h : returned r p = true) :
    ∃ x, r = .ok x ∧ p x = true := by
  cases r with
  | ok x => exact ⟨x, rfl, h⟩
  | panic => cases h
  | diverge => cases h

theorem mixed_reads : ∃ w, Sys.run Toy.codecs allowAll mixedCalls .empty = .ok w ∧ w.token.getAccount Toy.alice .finalized ≠ .ok none ∧
    w.main.getAccount Toy.bob .finalized = .ok (some (Toy.acct Toy.bob Toy.prog 5 2 2)) := by
  obtain ⟨w, h1, h2⟩ := of_check (r := Sys.run Toy.codecs allowAll mixedCalls .empty)
    (p := fun w : Sys => decide (w.token.getAccount Toy.alice .finalized ≠ .ok none) &&
      decide (w.main.getAccount Toy.bob .finalized = .ok (some (Toy.acct Toy.bob Toy.prog 5 2 2)))) (by decide +kernel)
  simp only [Bool.and_eq_true, decide_eq_true_eq] at h2
  exact ⟨w, h1, h2⟩

/-- The hypotheses of `C100_default_partial` are met. -/
example : ∃ w h, Sys.run Toy.codecs allowAll mixedCalls .empty = .ok w ∧ Store.empty.run h = .ok w.main ∧
    submissions Toy.bob h = [Toy.acct Toy.bob Toy.prog 5 2 2] := by
  obtain ⟨w, h1, -⟩ := mixed_reads
  obtain ⟨⟨h, g1, -, g3⟩, -⟩ := C100_default_partial Toy.codecs allowAll mixedCalls w Toy.bob (by decide) h1 mixed_aside
  refine ⟨w, h, h1, g1, ?_⟩
  rw [submissions_about, g3, ← submissions_about]
  decide +kernel

/-! ## C101: reads of accounts of other programs -/

/-- **C101**, the full claim: an account that the default storage has is read through the dispatcher. -/
def C101_statement : Prop :=
  ∀ (X : Codecs) (F : Filters) (ops : List SOp) (w : Sys) (pk : Pubkey) (c : Commitment) (a : AccountData),
    Sys.run X F ops .empty = .ok w → w.main.getAccount pk c = .ok (some a) → w.getAccount pk c = .ok (some a)

/-- The claim is false already after one account was loaded: the token store answers that there is no such account, and that is an answer. -/
theorem C101_refuted : ¬ C101_statement := by
  intro h
  have := h Toy.codecs allowAll [.init (Toy.acct Toy.bob Toy.prog 5 2 2)] ⟨.empty, _⟩ Toy.bob .finalized (Toy.acct Toy.bob Toy.prog 5 2 2) rfl (by decide)
  revert this
  simp [Sys.getAccount]
  decide +kernel

/-- It is false of every account that has nothing to do with the token programs: `get_account` never finds one. -/
theorem C101_never (X : Codecs) (F : Filters) (ops : List SOp) (w : Sys) (pk : Pubkey) (c : Commitment) (r : Option AccountData)
    (hn : 2 * ops.length < 2 ^ 31) (hr : Sys.run X F ops .empty = .ok w)
    (ha : ∀ o ∈ ops, ∀ a, submitted o = some a → Aside X pk a) (hg : w.getAccount pk c = .ok r) : r = none := by
  obtain ⟨⟨n', sl, or, hi, -⟩, hf, -⟩ := default_gets ops (w := .empty) (inv_empty _) (free_empty pk) (by omega) ha hr
  exact read_unknown hi hf hg

/-- The hypotheses are met by an account that the default storage has. -/
example : ∃ w, Sys.run Toy.codecs allowAll mixedCalls .empty = .ok w ∧ w.main.getAccount Toy.bob .finalized ≠ .ok none ∧
    ∀ r, w.getAccount Toy.bob .finalized = .ok r → r = none := by
  obtain ⟨w, h1, -, h2⟩ := mixed_reads
  exact ⟨w, h1, by rw [h2]; simp, fun r hr => C101_never Toy.codecs allowAll mixedCalls w Toy.bob .finalized r (by decide) h1 mixed_aside hr⟩

theorem mem_direct {F : Filters} {ops : List SOp} {G : Filters} {a : AccountData} {c : Commitment}
    (h : Op.update G a c ∈ ops.map (direct F)) : ∃ o ∈ ops, submitted o = some a := by
  simp only [List.mem_map] at h
  obtain ⟨o, ho, he⟩ := h
  cases o <;> simp [direct] at he
  · exact ⟨_, ho, by simp [submitted, he]⟩
  · exact ⟨_, ho, by simp [submitted, he]⟩

/-- The default storage gets some of the calls. -/
theorem main_calls {X : Codecs} {F : Filters} (ops : List SOp) {w w' : Sys} (hr : Sys.run X F ops w = .ok w') :
    ∃ h, w.main.run h = .ok w'.main ∧ h.Sublist (ops.map (direct F)) := by
  induction ops generalizing w with
  | nil => simp [Sys.run] at hr; subst hr; exact ⟨[], rfl, by simp⟩
  | cons o ops ih =>
    simp only [Sys.run, Run.bind_eq_ok] at hr
    obtain ⟨w1, h1, hr⟩ := hr
    have key : ∃ h, w.main.run h = .ok w1.main ∧ h.Sublist [direct F o] := by
      cases o with
      | update a c =>
        simp only [Sys.step, Sys.update, Run.bind_eq_ok, Run.pure_eq, Run.ok.injEq] at h1
        obtain ⟨⟨w2, b⟩, ⟨⟨b1, t1⟩, e1, h1⟩, rfl⟩ := h1
        cases b1 with
        | true => simp at h1; obtain ⟨rfl, rfl⟩ := h1; exact ⟨[], rfl, by simp⟩
        | false =>
          simp only [Bool.false_eq_true, if_false, Run.bind_eq_ok] at h1
          obtain ⟨⟨b2, t2⟩, e2, h1⟩ := h1
          cases b2 with
          | true => simp at h1; obtain ⟨rfl, rfl⟩ := h1; exact ⟨[], rfl, by simp⟩
          | false =>
            simp only [Bool.false_eq_true, if_false, Run.bind_eq_ok, Run.ok.injEq, Prod.mk.injEq] at h1
            obtain ⟨⟨m, b3⟩, e3, rfl, rfl⟩ := h1
            exact ⟨[.update F a c], by simp [Store.run, Store.step, e3], by simp [direct]⟩
      | init a =>
        simp only [Sys.step, Sys.init] at h1
        split at h1
        · simp only [Run.bind_eq_ok, Run.pure_eq, Run.ok.injEq] at h1
          obtain ⟨t, -, rfl⟩ := h1
          exact ⟨[], rfl, by simp⟩
        · simp only [Run.bind_eq_ok, Run.pure_eq, Run.ok.injEq, Store.initializeOrUpdate] at h1
          obtain ⟨m, ⟨⟨m', b⟩, e1, rfl⟩, rfl⟩ := h1
          exact ⟨[.update F a .finalized], by simp [Store.run, Store.step, e1], by simp [direct]⟩
      | slot o info c =>
        simp only [Sys.step, Sys.slot, Run.bind_eq_ok, Run.pure_eq, Run.ok.injEq] at h1
        obtain ⟨⟨w2, l⟩, ⟨⟨l1, t1⟩, e1, ⟨l2, t2⟩, e2, ⟨m, l3⟩, e3, h1⟩, rfl⟩ := h1
        simp only [Prod.mk.injEq] at h1
        obtain ⟨rfl, rfl⟩ := h1
        exact ⟨[.slot F o.main info c], by simp [Store.run, Store.step, e3], by simp [direct]⟩
    obtain ⟨h, g1, g2⟩ := key
    obtain ⟨h', k1, k2⟩ := ih hr
    exact ⟨h ++ h', by rw [Store.run_append, g1]; exact k1, g2.append k2⟩

theorem main_history {X : Codecs} {F : Filters} (ops : List SOp) {w : Sys} (hr : Sys.run X F ops .empty = .ok w) :
    ∃ h, Store.empty.run h = .ok w.main ∧ h.Sublist (ops.map (direct F)) := main_calls ops hr

/-- **C101 (partial)**. Queries for the accounts of a program find it, if the account never changed its owner.  Missing: `get_account`, and all that is missing in C100
and in C28. -/
theorem C101_queries_partial (X : Codecs) (F : Filters) (ops : List SOp) (w : Sys) (pk p : Pubkey) (σ : Orders) (busy : Nat → Bool)
    (fs : Option (List AccountFilterType)) (c : Commitment) (r : List AccountData) (a : AccountData)
    (hr : Sys.run X F ops .empty = .ok w) (hp : p ≠ Spl.tokenId ∧ p ≠ Spl.token2022Id)
    (hh : ∀ o ∈ ops, ∀ b, submitted o = some b → Honest X b ∧ (b.pubkey = pk → b.account.owner = p))
    (hw : QueryWellFormed X fs) (hq : w.getProgramAccounts X F σ busy p fs c = .ok (.ok r))
    (hg : w.main.getAccount pk c = .ok (some a)) (hsel : Selected X fs a) : ∃ b ∈ r, SameAccount X a b := by
  obtain ⟨h, h1, h2⟩ := main_history ops hr
  rw [Sys.getProgramAccounts, if_neg (by simp [hp.1, hp.2])] at hq
  refine C28_query_complete_partial h w.main h1 X ?_ F busy p fs c r hw hq pk a ?_ hg hsel
  · intro G b d hb
    obtain ⟨o, ho, hs⟩ := mem_direct (h2.subset hb)
    exact (hh o ho b hs).1
  · intro b hb
    obtain ⟨rfl, G, d, hb⟩ := mem_submissions.1 hb
    obtain ⟨o, ho, hs⟩ := mem_direct (h2.subset hb)
    exact (hh o ho b hs).2 rfl

/-- The hypotheses are met. -/
example : ∃ w r b, Sys.run Toy.codecs allowAll mixedCalls .empty = .ok w ∧
    w.getProgramAccounts Toy.codecs allowAll plainOrders (fun _ => false) Toy.prog none .finalized = .ok (.ok r) ∧ b ∈ r ∧
    b.pubkey = Toy.bob := by
  obtain ⟨w, h1, -, h2⟩ := mixed_reads
  obtain ⟨w', h1', h3⟩ := of_check (r := Sys.run Toy.codecs allowAll mixedCalls .empty)
    (p := fun w : Sys => match w.getProgramAccounts Toy.codecs allowAll plainOrders (fun _ => false) Toy.prog none .finalized with
      | .ok (.ok _) => true | _ => false) (by decide +kernel)
  rw [h1] at h1'; cases h1'
  cases hq : w.getProgramAccounts Toy.codecs allowAll plainOrders (fun _ => false) Toy.prog none .finalized with
  | panic => simp [hq] at h3
  | diverge => simp [hq] at h3
  | ok q =>
    cases q with
    | error e => simp [hq] at h3
    | ok r =>
      have hh : ∀ o ∈ mixedCalls, ∀ b, submitted o = some b → Honest Toy.codecs b ∧ (b.pubkey = Toy.bob → b.account.owner = Toy.prog) := by
        intro o ho b hs
        simp only [mixedCalls, List.mem_cons, List.not_mem_nil, or_false] at ho
        rcases ho with rfl | rfl | rfl | rfl
        · simp only [submitted, Option.some.injEq] at hs; subst hs
          exact ⟨⟨_, rfl, rfl⟩, fun h => absurd h (by decide +kernel)⟩
        · simp only [submitted, Option.some.injEq] at hs; subst hs
          exact ⟨⟨_, rfl, rfl⟩, fun h => absurd h (by decide +kernel)⟩
        · simp only [submitted, Option.some.injEq] at hs; subst hs
          exact ⟨⟨_, rfl, rfl⟩, fun _ => rfl⟩
        · cases hs
      obtain ⟨b, hb, hsame⟩ := C101_queries_partial Toy.codecs allowAll mixedCalls w Toy.bob Toy.prog plainOrders (fun _ => false) none .finalized r
        _ h1 ⟨by decide +kernel, by decide +kernel⟩ hh (by intro l hl; cases hl) hq h2 (by intro l hl; cases hl)
      exact ⟨w, r, b, h1, hq, hb, hsame.pubkey⟩

/-- **C101**. What such a query returns are accounts of the program that the default storage has, each once. -/
theorem C101_queries_sound (X : Codecs) (F : Filters) (ops : List SOp) (w : Sys) (p : Pubkey) (σ : Orders) (busy : Nat → Bool)
    (fs : Option (List AccountFilterType)) (c : Commitment) (r : List AccountData) (hr : Sys.run X F ops .empty = .ok w)
    (hp : p ≠ Spl.tokenId ∧ p ≠ Spl.token2022Id) (hq : w.getProgramAccounts X F σ busy p fs c = .ok (.ok r)) :
    (r.map AccountData.pubkey).Nodup ∧ ∀ b ∈ r, b.account.owner = p ∧ Selected X fs b ∧
      ∃ a, stateAt w.main b.pubkey c = some a ∧ SameAccount X a b := by
  obtain ⟨h, h1, -⟩ := main_history ops hr
  rw [Sys.getProgramAccounts, if_neg (by simp [hp.1, hp.2])] at hq
  exact C27_query_sound h w.main h1 X F busy p fs c r hq

/-! ## C102: slot notifications -/

/-- **C102**, the full claim: a slot notification does to each storage what it does when made to the storage directly, and the
accounts that it reports are those reported by the token store, followed by those reported by the default storage. -/
def C102_statement : Prop :=
  ∀ (X : Codecs) (F : Filters) (ops : List SOp) (w w' : Sys) (o : SlotOrders) (info : SlotInfo) (c : Commitment) (l : List AccountData),
    2 * ops.length < 2 ^ 31 → Sys.run X F ops .empty = .ok w → w.slot F o info c = .ok (w', l) →
    ∃ l1 l3, w.token.processSlot o.first info c = .ok (l1, w'.token) ∧ w.main.processSlotData F o.main info c = .ok (w'.main, l3) ∧
      l = l1 ++ l3

/-- It is also false of processed slots: the second time, the parent that the first notification of a slot drops is recorded. -/
theorem C102_refuted_processed : ∃ (w w' : Sys) (o : SlotOrders) (info : SlotInfo) (t : TokenStore),
    Sys.run Toy.codecs allowAll [] .empty = .ok w ∧ w.slot allowAll o info .processed = .ok (w', []) ∧
    w.token.processSlot o.first info .processed = .ok ([], t) ∧ w'.token ≠ t := by
  refine ⟨.empty, ⟨_, _⟩, ⟨plainOrders, plainOrders, .asIs⟩, ⟨2, 1, 0⟩, _, rfl, rfl, rfl, ?_⟩
  decide +kernel

/-- **C102 (partial)**. The claim holds of finalized slots.  Of confirmed ones it holds except that the accounts of the token programs are
reported twice. -/
theorem C102_finalized_partial (X : Codecs) (F : Filters) (ops : List SOp) (w w' : Sys) (o : SlotOrders) (info : SlotInfo)
    (l : List AccountData) (hn : 2 * ops.length < 2 ^ 31) (hr : Sys.run X F ops .empty = .ok w)
    (hs : w.slot F o info .finalized = .ok (w', l)) :
    ∃ l1 l3, w.token.processSlot o.first info .finalized = .ok (l1, w'.token) ∧
      w.main.processSlotData F o.main info .finalized = .ok (w'.main, l3) ∧ l = l1 ++ l3 := by
  obtain ⟨sl, or, hi⟩ := sys_inv ops (w := .empty) (inv_empty _) (by omega) hr
  simp only [Sys.slot, Run.bind_eq_ok, Run.pure_eq, Run.ok.injEq, Prod.mk.injEq] at hs
  obtain ⟨⟨l1, t1⟩, e1, ⟨l2, t2⟩, e2, ⟨m, l3⟩, e3, rfl, rfl⟩ := hs
  simp only [finalized_again hi.proc.sorted e1, Run.ok.injEq, Prod.mk.injEq] at e2
  obtain ⟨rfl, rfl⟩ := e2
  exact ⟨l1, l3, e1, e3, by simp⟩

theorem C102_confirmed_partial (F : Filters) (w w' : Sys) (o : SlotOrders) (info : SlotInfo) (l : List AccountData)
    (hs : w.slot F o info .confirmed = .ok (w', l)) :
    ∃ l1 l3, w.token.processSlot o.first info .confirmed = .ok (l1, w'.token) ∧
      w.main.processSlotData F o.main info .confirmed = .ok (w'.main, l3) ∧ l = l1 ++ (l1 ++ l3) := by
  simp only [Sys.slot, Run.bind_eq_ok, Run.pure_eq, Run.ok.injEq, Prod.mk.injEq] at hs
  obtain ⟨⟨l1, t1⟩, e1, ⟨l2, t2⟩, e2, ⟨m, l3⟩, e3, rfl, rfl⟩ := hs
  simp only [confirmed_again e1, Run.ok.injEq, Prod.mk.injEq] at e2
  obtain ⟨rfl, rfl⟩ := e2
  exact ⟨l1, l3, e1, e3, rfl⟩

/-- Of processed slots, it holds of the default storage; the token store knows the parent of the slot afterwards, and nothing is reported. -/
theorem C102_processed_partial (F : Filters) (w w' : Sys) (o : SlotOrders) (info : SlotInfo) (l : List AccountData)
    (hs : w.slot F o info .processed = .ok (w', l)) :
    w.main.processSlotData F o.main info .processed = .ok (w'.main, l) ∧
    (∃ e, BMap.find w'.token.processed info.slot = some e ∧ e.parent = some info.parent) ∧
    ∀ k pk, Token.stateAt w'.token.processed k pk = Token.stateAt w.token.processed k pk := by
  simp only [Sys.slot, TokenStore.processSlot, Run.ok_bind, Run.bind_eq_ok, Run.pure_eq, Run.ok.injEq, Prod.mk.injEq] at hs
  obtain ⟨⟨m, l3⟩, e3, rfl, rfl⟩ := hs
  refine ⟨by simpa using e3, ?_, fun k pk => ?_⟩
  · simp only [ProcStore.updateSlotInfo]
    cases BMap.find w.token.processed info.slot <;> simp [BMap.find_insert]
  · simp [Token.stateAt_updateSlotInfo]

/-- `alice`'s token account was updated in slot 5. -/
def pendingCalls : List SOp := [.init mintAcct, .init (tokenAcct Toy.alice 1 1), .update (tokenAcct Toy.alice 5 2) .processed]

/-- The claim is false of confirmed slots: the token store is registered for two programs, and reports its accounts twice. -/
theorem C102_refuted : ¬ C102_statement := by
  intro h
  obtain ⟨w, h1, h2⟩ := of_check (r := Sys.run Toy.codecs allowAll pendingCalls .empty)
    (p := fun w : Sys => returned (w.slot allowAll ⟨plainOrders, plainOrders, .asIs⟩ ⟨5, 4, 0⟩ .confirmed) (fun _ => true) &&
      returned (w.token.processSlot plainOrders ⟨5, 4, 0⟩ .confirmed) (fun x => decide (x.1.length = 1))) (by decide +kernel)
  rw [Bool.and_eq_true] at h2
  obtain ⟨⟨w', l⟩, h3, -⟩ := of_check h2.1
  obtain ⟨⟨l0, t⟩, h5, h6⟩ := of_check h2.2
  simp only [decide_eq_true_eq] at h6
  obtain ⟨l1, l3, e1, e3, rfl⟩ := h _ _ _ _ _ _ _ _ _ (by simp [pendingCalls]) h1 h3
  obtain ⟨k1, k3, f1, f3, f4⟩ := C102_confirmed_partial _ _ _ _ _ _ h3
  rw [e1] at f1; cases f1
  rw [e3] at f3; cases f3
  have hl := congrArg List.length f4
  simp only [List.length_append] at hl
  simp only at e1
  rw [h5] at e1; cases e1
  omega

/-- A finalized notification that reports the token account, once. -/
example : ∃ w w' l l1 l3, Sys.run Toy.codecs allowAll pendingCalls .empty = .ok w ∧
    w.slot allowAll ⟨plainOrders, plainOrders, .asIs⟩ ⟨5, 4, 0⟩ .finalized = .ok (w', l) ∧ l.length = 1 ∧ l = l1 ++ l3 ∧
    w.token.processSlot plainOrders ⟨5, 4, 0⟩ .finalized = .ok (l1, w'.token) := by
  obtain ⟨w, h1, h2⟩ := of_check (r := Sys.run Toy.codecs allowAll pendingCalls .empty)
    (p := fun w : Sys => returned (w.slot allowAll ⟨plainOrders, plainOrders, .asIs⟩ ⟨5, 4, 0⟩ .finalized)
      (fun x => decide (x.2.length = 1))) (by decide +kernel)
  obtain ⟨⟨w', l⟩, h3, h4⟩ := of_check h2
  obtain ⟨l1, l3, e1, -, e3⟩ := C102_finalized_partial _ _ _ _ _ _ _ _ (by simp [pendingCalls]) h1 h3
  exact ⟨w, w', l, l1, l3, h1, h3, by simpa using h4, e3, e1⟩

end LAM.Props
