import Mathlib.Data.DFinsupp.WellFounded
import Verif.Spec.TokenConc
import Verif.Lemmas.TokenStoreHist
/-!
# Concurrent calls of the token program store: no deadlock, every call ends
-/
namespace LAM.TokConc
open Token Run
open Spl (tokenId token2022Id)

/-! ## Locks are asked for in a fixed order -/

/-- The order in which locks are taken. -/
def Lock.rank : Lock → Nat
  | .index _ | .processed => 0
  | .byMint _ | .bucket _ | .multisig _ | .byOwner _ => 1
  | .accounts => 2
  | .mints _ => 3

/-- A thread only asks for locks above those it has. -/
theorem rank_lt {E : Env} {p : Pc} {l l' : Lock} {m m' : Mode} (h : (l, m) ∈ p.holds E) (h' : p.wants E = some (l', m')) :
    l.rank < l'.rank := by
  cases p <;> simp only [Pc.holds, List.not_mem_nil, List.mem_cons, or_false, Prod.mk.injEq] at h <;>
    simp only [Pc.wants, Option.some.injEq, Prod.mk.injEq, reduceCtorEq] at h'
  case convert l0 out j =>
    have hl : l.rank < 3 := by
      cases j with
      | found q mi =>
        cases mi with
        | none => simp [Job.holds] at h
        | some x => simp [Job.holds] at h; rcases h with ⟨rfl, -⟩ | ⟨rfl, -⟩ <;> simp [Lock.rank]
      | confirmed => simp [Job.holds] at h; rcases h with ⟨rfl, -⟩; simp [Lock.rank]
      | _ => simp [Job.holds] at h
    rcases l0 with _ | ⟨_ | ⟨_ | _ | _ | _, _, _⟩, _⟩ <;> simp only [reduceCtorEq] at h'
    split at h' <;> simp only [Option.some.injEq, Prod.mk.injEq, reduceCtorEq] at h'
    rw [← h'.1]
    exact hl
  all_goals
    first
    | (obtain ⟨rfl, -⟩ := h; obtain ⟨rfl, -⟩ := h'; simp [Lock.rank]; done)
    | (obtain ⟨rfl, -⟩ := h'; rcases h with ⟨rfl, -⟩ | ⟨rfl, -⟩ <;> simp [Lock.rank])

/-! ## Every call ends -/

/-- How much a thread has left to do, at most. -/
def Pc.left : Pc → ℕ ×ₗ ℕ
  | .idle | .loops _ => toLex (0, 0)
  | .chkIndex .. => toLex (20, 0)
  | .chkMultisig .. => toLex (19, 0)
  | .chkBucket .. => toLex (18, 0)
  | .chkAccounts .. => toLex (17, 0)
  | .classify .. => toLex (16, 0)
  | .insert .. => toLex (15, 0)
  | .psStart .. => toLex (16, 0)
  | .psConfirm .. => toLex (15, 0)
  | .psUpdate .. => toLex (14, 0)
  | .psFinal .. => toLex (13, 0)
  | .psReport .. => toLex (13, 0)
  | .psFinalize .. => toLex (12, 0)
  | .psMissing .. => toLex (12, 0)
  | .convert l _ (.finalized _) => toLex (11, l.length)
  | .convert l _ .confirmed => toLex (11, l.length)
  | .add _ k => toLex (10, 10 * k.todo.length + 9)
  | .save _ k => toLex (10, 10 * k.todo.length + 8)
  | .pushMint _ _ k => toLex (10, 10 * k.todo.length + 7)
  | .pushOwner _ _ k => toLex (10, 10 * k.todo.length + 6)
  | .putMint _ _ _ k => toLex (10, 10 * k.todo.length + 6)
  | .eraseMint _ k => toLex (10, 10 * k.todo.length + 8)
  | .eraseByMint _ k => toLex (10, 10 * k.todo.length + 7)
  | .again _ k => toLex (10, 10 * k.todo.length + 8)
  | .dropBucket _ k => toLex (10, 10 * k.todo.length + 7)
  | .entomb _ _ k => toLex (10, 10 * k.todo.length + 6)
  | .gpaStart .. => toLex (14, 0)
  | .gpaOwner .. => toLex (13, 0)
  | .gpaMint .. => toLex (13, 0)
  | .gpaIndex .. => toLex (12, 0)
  | .gpaByMint .. => toLex (12, 0)
  | .gpaGet .. => toLex (11, 0)
  | .gpaMintGet .. => toLex (11, 0)
  | .gpaMints _ _ shards _ => toLex (11, shards.length)
  | .convert l _ (.found ..) => toLex (10, l.length)
  | .scanSlot .. => toLex (9, 0)
  | .scan .. => toLex (8, 0)
  | .rescan .. => toLex (7, 0)
  | .finMultisig .. => toLex (6, 0)
  | .finMultisigSlot .. => toLex (5, 0)
  | .finIndex .. => toLex (5, 0)
  | .finMint .. => toLex (4, 0)
  | .finMintSlot .. => toLex (3, 0)
  | .finBucket .. => toLex (4, 0)
  | .finAccounts .. => toLex (3, 0)
  | .finSlot .. => toLex (2, 0)
  | .convert l _ .overlay => toLex (5, l.length)
  | .convert l _ .one => toLex (1, l.length)

theorem lex_lt {a b c d : Nat} : (toLex (a, b) : ℕ ×ₗ ℕ) < toLex (c, d) ↔ a < c ∨ (a = c ∧ b < d) := by
  rw [Prod.Lex.toLex_lt_toLex]

theorem left_pos {p : Pc} (h : p.active) : toLex (0, 0) < p.left := by
  cases p with
  | idle => exact h.elim
  | loops _ => exact h.elim
  | convert l out j => cases j <;> simp [Pc.left, lex_lt]
  | _ => simp [Pc.left, lex_lt]

/-- After an account is stored, less is left than before. -/
theorem after_left {k : After} {p : Pc} (h : k.next = .go p) : p.left < toLex (10, 10 * k.todo.length) := by
  unfold After.next at h
  split at h
  · simp at h
  · rename_i x l e
    simp only [Next.go.injEq] at h
    subst h
    rw [e]
    simp [Pc.left, lex_lt]
    omega

theorem job_left {out : List AccountData} {j : Job} {p : Pc} (h : j.next out = .go p) : p.left < Pc.left (.convert [] [] j) := by
  cases j with
  | one => simp [Job.next] at h
  | found q mi =>
    simp only [Job.next] at h
    split at h
    · simp at h
    · simp only [Next.go.injEq] at h; subst h; simp [Pc.left, lex_lt]
  | overlay => simp [Job.next] at h
  | confirmed => simp [Job.next] at h
  | finalized l =>
    have := after_left h
    refine lt_trans this ?_
    simp [Pc.left, lex_lt]

theorem convert_left {l : List Item} {x : Item} {out out' : List AccountData} {j : Job} :
    Pc.left (.convert l out j) < Pc.left (.convert (x :: l) out' j) := by
  cases j <;> simp [Pc.left, lex_lt]

theorem scan_left {r : ProcStore.Answers} {j : Scan} {p : Pc} (h : j.next r = .ok (.go p)) : p.left < toLex (7, 0) := by
  cases j with
  | one pk =>
    simp only [Scan.next, Run.bind_eq_ok] at h
    obtain ⟨o, -, h⟩ := h
    split at h <;> simp only [Run.pure_eq, Run.ok.injEq, Next.go.injEq] at h <;> subst h <;> simp [Pc.left, lex_lt]
  | overlay l =>
    simp only [Scan.next, Run.ok.injEq, Next.go.injEq] at h
    subst h; simp [Pc.left, lex_lt]

theorem exec_left {E : Env} {σ : Orders} {s s' : TokenStore} {p p' : Pc} (h : p.exec E σ s = .ok (s', .go p')) :
    p'.left < p.left := by
  cases p
  case idle => simp [Pc.exec] at h
  case loops => simp [Pc.exec] at h
  case chkIndex a c =>
    simp only [Pc.exec, taken] at h
    split at h <;> simp only [Run.ok.injEq, Prod.mk.injEq, Next.go.injEq] at h <;> rw [← h.2] <;> simp [Pc.left, lex_lt]
  case chkMultisig a c =>
    simp only [Pc.exec, taken] at h
    split at h <;> simp only [Run.ok.injEq, Prod.mk.injEq, Next.go.injEq] at h <;> rw [← h.2] <;> simp [Pc.left, lex_lt]
  case chkBucket a c =>
    simp only [Pc.exec] at h
    split at h
    · split at h
      · simp only [Run.ok.injEq, Prod.mk.injEq, Next.go.injEq] at h; rw [← h.2]; simp [Pc.left, lex_lt]
      · simp only [Run.bind_eq_ok, taken, Run.pure_eq, Run.ok.injEq, Prod.mk.injEq, Next.go.injEq] at h
        obtain ⟨-, -, -, rfl⟩ := h; simp [Pc.left, lex_lt]
    · simp [taken] at h
  case chkAccounts a c =>
    simp only [Pc.exec, Run.bind_eq_ok, Run.pure_eq, Run.ok.injEq, Prod.mk.injEq] at h
    obtain ⟨b, -, -, h⟩ := h
    cases b with
    | none => simp [taken] at h
    | some b => simp [taken] at h; subst h; simp [Pc.left, lex_lt]
  case classify a c =>
    simp only [Pc.exec, Run.bind_eq_ok, Run.pure_eq, Run.ok.injEq, Prod.mk.injEq] at h
    obtain ⟨⟨x, T⟩, -, -, h⟩ := h
    unfold decoded at h
    split at h
    · simp at h
    · split at h <;> simp only [Next.go.injEq] at h <;> subst h <;> simp [Pc.left, lex_lt]
  case insert a x => simp [Pc.exec] at h
  case add x k =>
    cases x with
    | token t => simp only [Pc.exec, Run.ok.injEq, Prod.mk.injEq, Next.go.injEq] at h; rw [← h.2]; simp [Pc.left, lex_lt]
    | mint m =>
      simp only [Pc.exec] at h
      split at h <;> simp only [Run.ok.injEq, Prod.mk.injEq, Next.go.injEq] at h <;> rw [← h.2] <;> simp [Pc.left, lex_lt]
    | multisig m pk =>
      simp only [Pc.exec, Run.ok.injEq, Prod.mk.injEq] at h
      exact lt_trans (after_left h.2) (by simp [Pc.left, lex_lt])
    | deleted pk =>
      simp only [Pc.exec] at h
      split at h <;> simp only [Run.ok.injEq, Prod.mk.injEq, Next.go.injEq] at h <;> rw [← h.2] <;> simp [Pc.left, lex_lt]
  case save t k =>
    simp only [Pc.exec, Run.bind_eq_ok, Run.pure_eq, Run.ok.injEq, Prod.mk.injEq] at h
    obtain ⟨⟨⟨i, added⟩, tk⟩, -, -, h⟩ := h
    dsimp only at h
    split at h
    · simp only [Next.go.injEq] at h; subst h; simp [Pc.left, lex_lt]
    · exact lt_trans (after_left h) (by simp [Pc.left, lex_lt])
  case pushMint t i k =>
    simp only [Pc.exec, Run.ok.injEq, Prod.mk.injEq, Next.go.injEq] at h; rw [← h.2]; simp [Pc.left, lex_lt]
  case pushOwner t i k =>
    simp only [Pc.exec, Run.ok.injEq, Prod.mk.injEq] at h
    exact lt_trans (after_left h.2) (by simp [Pc.left, lex_lt])
  case putMint m i new k =>
    simp only [Pc.exec, Run.ok.injEq, Prod.mk.injEq] at h
    exact lt_trans (after_left h.2) (by simp [Pc.left, lex_lt])
  case eraseMint i k =>
    simp only [Pc.exec, Run.ok.injEq, Prod.mk.injEq, Next.go.injEq] at h; rw [← h.2]; simp [Pc.left, lex_lt]
  case eraseByMint i k =>
    simp only [Pc.exec, Run.ok.injEq, Prod.mk.injEq] at h
    exact lt_trans (after_left h.2) (by simp [Pc.left, lex_lt])
  case again pk k =>
    simp only [Pc.exec] at h
    split at h <;> simp only [Run.ok.injEq, Prod.mk.injEq, Next.go.injEq] at h
    · exact lt_trans (after_left h.2) (by simp [Pc.left, lex_lt])
    · rw [← h.2]; simp [Pc.left, lex_lt]
  case dropBucket pk k =>
    simp only [Pc.exec] at h
    split at h <;> simp only [Run.ok.injEq, Prod.mk.injEq, Next.go.injEq] at h
    · rw [← h.2]; simp [Pc.left, lex_lt]
    · exact lt_trans (after_left h.2) (by simp [Pc.left, lex_lt])
  case entomb pk is k =>
    simp only [Pc.exec, Run.bind_eq_ok] at h
    obtain ⟨o, -, h⟩ := h
    split at h <;> simp only [Run.pure_eq, Run.ok.injEq, Prod.mk.injEq] at h <;>
      exact lt_trans (after_left h.2) (by simp [Pc.left, lex_lt])
  case scanSlot c j =>
    simp only [Pc.exec, Run.ok.injEq, Prod.mk.injEq, Next.go.injEq] at h; rw [← h.2]; simp [Pc.left, lex_lt]
  case scan c n j =>
    cases c with
    | finalized => simp [Pc.exec] at h
    | confirmed =>
      simp only [Pc.exec, Run.bind_eq_ok, Run.pure_eq, Run.ok.injEq, Prod.mk.injEq] at h
      obtain ⟨r, -, nx, hn, -, rfl⟩ := h
      exact lt_trans (scan_left hn) (by simp [Pc.left, lex_lt])
    | processed =>
      simp only [Pc.exec] at h
      split at h
      · simp only [Run.ok.injEq, Prod.mk.injEq, Next.go.injEq] at h; rw [← h.2]; simp [Pc.left, lex_lt]
      · simp only [Run.bind_eq_ok, Run.pure_eq, Run.ok.injEq, Prod.mk.injEq] at h
        obtain ⟨nx, hn, -, rfl⟩ := h
        exact lt_trans (scan_left hn) (by simp [Pc.left, lex_lt])
  case rescan n ret j =>
    simp only [Pc.exec, Run.bind_eq_ok, Run.pure_eq, Run.ok.injEq, Prod.mk.injEq] at h
    obtain ⟨r, -, nx, hn, -, rfl⟩ := h
    exact scan_left hn
  case finMultisig pk =>
    simp only [Pc.exec] at h
    split at h <;> simp only [Run.ok.injEq, Prod.mk.injEq, Next.go.injEq] at h <;> rw [← h.2] <;> simp [Pc.left, lex_lt]
  case finMultisigSlot pk m =>
    simp only [Pc.exec, Run.bind_eq_ok, Run.pure_eq, Run.ok.injEq, Prod.mk.injEq, reduceCtorEq, and_false, exists_false] at h
  case finIndex pk =>
    simp only [Pc.exec] at h
    split at h <;> simp only [Run.ok.injEq, Prod.mk.injEq, Next.go.injEq] at h <;> rw [← h.2] <;> simp [Pc.left, lex_lt]
  case finMint pk i =>
    simp only [Pc.exec, Run.bind_eq_ok, Run.pure_eq, Run.ok.injEq, Prod.mk.injEq, Next.go.injEq] at h
    obtain ⟨m, -, -, rfl⟩ := h
    simp [Pc.left, lex_lt]
  case finMintSlot pk i m => simp [Pc.exec] at h
  case finBucket pk =>
    simp only [Pc.exec] at h
    split at h <;> simp only [Run.ok.injEq, Prod.mk.injEq, Next.go.injEq, reduceCtorEq, and_false] at h
    rw [← h.2]; simp [Pc.left, lex_lt]
  case finAccounts pk =>
    simp only [Pc.exec, Run.bind_eq_ok] at h
    obtain ⟨o, -, h⟩ := h
    split at h
    · split at h <;> simp only [Run.pure_eq, Run.ok.injEq, Prod.mk.injEq, Next.go.injEq, reduceCtorEq, and_false] at h
      rw [← h.2]; simp [Pc.left, lex_lt]
    · simp at h
  case finSlot t =>
    simp only [Pc.exec, Run.ok.injEq, Prod.mk.injEq, Next.go.injEq] at h; rw [← h.2]; simp [Pc.left, lex_lt]
  case gpaStart p fs c =>
    simp only [Pc.exec] at h
    split at h
    · simp at h
    · split at h
      · simp at h
      · split at h
        · simp only [Run.ok.injEq, Prod.mk.injEq, Next.go.injEq] at h; rw [← h.2]; simp [Pc.left, lex_lt]
        · simp only [Run.ok.injEq, Prod.mk.injEq, Next.go.injEq] at h; rw [← h.2]; simp [Pc.left, lex_lt]
        · split at h
          · simp only [Run.ok.injEq, Prod.mk.injEq, Next.go.injEq] at h; rw [← h.2]; simp [Pc.left, lex_lt]
          · simp at h
  case gpaOwner q slot owner mint =>
    simp only [Pc.exec, Run.ok.injEq, Prod.mk.injEq, Next.go.injEq] at h; rw [← h.2]; simp [Pc.left, lex_lt]
  case gpaIndex q slot owner mint is =>
    simp only [Pc.exec] at h
    rw [Run.bind_eq_ok] at h
    obtain ⟨mi, _, h⟩ := h
    split at h <;> simp only [Run.pure_eq, Run.ok.injEq, Prod.mk.injEq, Next.go.injEq] at h <;> rw [← h.2] <;> simp [Pc.left, lex_lt]
  case gpaGet q slot owner mint is =>
    simp only [Pc.exec, Run.bind_eq_ok, Run.pure_eq, Run.ok.injEq, Prod.mk.injEq, Next.go.injEq] at h
    obtain ⟨ts, -, -, rfl⟩ := h
    simp [Pc.left, lex_lt]
  case gpaMint q slot mint =>
    simp only [Pc.exec] at h
    split at h <;> simp only [Run.ok.injEq, Prod.mk.injEq, Next.go.injEq] at h <;> rw [← h.2] <;> simp [Pc.left, lex_lt]
  case gpaByMint q slot mint i =>
    simp only [Pc.exec] at h
    split at h <;> simp only [Run.ok.injEq, Prod.mk.injEq, Next.go.injEq] at h <;> rw [← h.2] <;> simp [Pc.left, lex_lt]
  case gpaMintGet q slot mint i is =>
    simp only [Pc.exec, Run.bind_eq_ok, Run.pure_eq, Run.ok.injEq, Prod.mk.injEq, Next.go.injEq] at h
    obtain ⟨ts, -, -, rfl⟩ := h
    simp [Pc.left, lex_lt]
  case gpaMints q slot shards out =>
    cases shards with
    | nil => simp only [Pc.exec, Run.ok.injEq, Prod.mk.injEq, Next.go.injEq] at h; rw [← h.2]; simp [Pc.left, lex_lt]
    | cons n shards =>
      simp only [Pc.exec, Run.bind_eq_ok, Run.pure_eq, Run.ok.injEq, Prod.mk.injEq, Next.go.injEq] at h
      obtain ⟨l, -, -, rfl⟩ := h
      simp [Pc.left, lex_lt]
  case convert l out j =>
    cases l with
    | nil =>
      simp only [Pc.exec, Run.ok.injEq, Prod.mk.injEq] at h
      exact lt_of_lt_of_eq (job_left h.2) (by cases j <;> rfl)
    | cons x l =>
      cases x with
      | keep a => simp only [Pc.exec, Run.ok.injEq, Prod.mk.injEq, Next.go.injEq] at h; rw [← h.2]; exact convert_left
      | conv x slot wv =>
        simp only [Pc.exec, Run.bind_eq_ok, Run.pure_eq, Run.ok.injEq, Prod.mk.injEq, Next.go.injEq] at h
        obtain ⟨r, -, -, rfl⟩ := h
        exact convert_left
  case psStart info c =>
    cases c with
    | processed => simp [Pc.exec] at h
    | confirmed =>
      simp only [Pc.exec] at h
      split at h <;> simp only [Run.ok.injEq, Prod.mk.injEq, Next.go.injEq] at h <;> rw [← h.2] <;> simp [Pc.left, lex_lt]
    | finalized =>
      simp only [Pc.exec] at h
      split at h <;> simp only [Run.ok.injEq, Prod.mk.injEq, Next.go.injEq] at h <;> rw [← h.2] <;> simp [Pc.left, lex_lt]
  case psConfirm info =>
    simp only [Pc.exec, Run.ok.injEq, Prod.mk.injEq, Next.go.injEq] at h; rw [← h.2]; simp [Pc.left, lex_lt]
  case psUpdate info c =>
    simp only [Pc.exec] at h
    split at h <;> simp only [Run.ok.injEq, Prod.mk.injEq, Next.go.injEq] at h <;> rw [← h.2] <;> simp [Pc.left, lex_lt]
  case psFinal info =>
    simp only [Pc.exec, Run.ok.injEq, Prod.mk.injEq, Next.go.injEq] at h; rw [← h.2]; simp [Pc.left, lex_lt]
  case psReport info =>
    simp only [Pc.exec] at h
    split at h <;> simp only [Run.ok.injEq, Prod.mk.injEq, Next.go.injEq] at h <;> rw [← h.2] <;> simp [Pc.left, lex_lt]
  case psMissing info => simp [Pc.exec] at h
  case psFinalize info =>
    simp only [Pc.exec, Run.bind_eq_ok, Run.pure_eq, Run.ok.injEq, Prod.mk.injEq, Next.go.injEq] at h
    obtain ⟨⟨P, l⟩, -, -, rfl⟩ := h
    simp [Pc.left, lex_lt]

/-! ## Steps end -/

open Spec ProcStore

theorem ends_scan {r : Answers} {j : Scan} : (j.next r).Ends := by
  cases j with
  | one pk =>
    exact Ends.bind (ends_unwrap _) fun o _ => by
      split <;> exact ends_ok _
  | overlay l => exact ends_ok _

theorem ends_getConfirmed {P : ProcStore} (hb : ParentsBelow P) (pks : List Pubkey) (ret : Answers) (slot : Nat) :
    (getConfirmed (P.length + 1) P pks ret slot).Ends := by
  obtain ⟨r, hr⟩ := getConfirmed_total (P.length + 1) hb pks ret slot (Nat.lt_succ_of_le (List.length_filter_le _ _))
  rw [hr]; exact ends_ok _

/-- No step of a call runs forever when parents are older than their slots. -/
theorem ends_exec {E : Env} {σ : Orders} {s : TokenStore} {p : Pc} (hp : p.active) (hb : ParentsBelow s.processed) :
    (p.exec E σ s).Ends := by
  cases p
  case idle => exact hp.elim
  case loops => exact hp.elim
  case chkBucket a c =>
    simp only [Pc.exec]
    split
    · split
      · exact ends_ok _
      · exact Ends.bind (ends_unwrap _) fun _ _ => ends_ok _
    · exact ends_ok _
  case chkAccounts a c => exact Ends.bind (ends_contains _ _) fun _ _ => ends_ok _
  case classify a c => exact Ends.bind (ends_classify _ _ _) fun _ _ => ends_ok _
  case add x k =>
    cases x <;> simp only [Pc.exec]
    case token => exact ends_ok _
    case mint => split <;> exact ends_ok _
    case multisig => exact ends_ok _
    case deleted => split <;> exact ends_ok _
  case save t k => exact Ends.bind (ends_save _ _) fun _ _ => ends_ok _
  case again pk k => simp only [Pc.exec]; split <;> exact ends_ok _
  case dropBucket pk k => simp only [Pc.exec]; split <;> exact ends_ok _
  case entomb pk is k =>
    simp only [Pc.exec]
    exact Ends.bind (ends_firstMatch _ _ _) fun _ _ => by split <;> exact ends_ok _
  case scan c n j =>
    cases c with
    | finalized => simp [Pc.exec, Ends]
    | confirmed =>
      simp only [Pc.exec]
      exact Ends.bind (ends_getConfirmed hb _ _ _) fun _ _ => Ends.bind ends_scan fun _ _ => ends_ok _
    | processed =>
      simp only [Pc.exec]
      split
      · exact ends_ok _
      · exact Ends.bind ends_scan fun _ _ => ends_ok _
  case rescan n ret j =>
    simp only [Pc.exec]
    exact Ends.bind (ends_getConfirmed hb _ _ _) fun _ _ => Ends.bind ends_scan fun _ _ => ends_ok _
  case finMultisig pk => simp only [Pc.exec]; split <;> exact ends_ok _
  case finMultisigSlot pk m => exact Ends.bind (ends_multisigToSolana _ _ _ _) fun _ _ => ends_ok _
  case finIndex pk => simp only [Pc.exec]; split <;> exact ends_ok _
  case finMint pk i => exact Ends.bind (ends_unwrap _) fun _ _ => ends_ok _
  case finBucket pk => simp only [Pc.exec]; split <;> exact ends_ok _
  case finAccounts pk =>
    simp only [Pc.exec]
    exact Ends.bind (ends_getByPubkey _ _) fun _ _ => by split <;> exact ends_ok _
  case gpaStart p fs c =>
    simp only [Pc.exec]
    repeat' split
    all_goals exact ends_ok _
  case gpaIndex q slot owner mint is =>
    simp only [Pc.exec]
    refine Ends.bind ?_ fun _ _ => by split <;> exact ends_ok _
    split
    · exact Ends.bind (ends_unwrap _) fun _ _ => ends_ok _
    · exact ends_ok _
  case gpaGet q slot owner mint is => exact Ends.bind (ends_getByIndex _ _) fun _ _ => ends_ok _
  case gpaMint q slot mint => simp only [Pc.exec]; split <;> exact ends_ok _
  case gpaByMint q slot mint i => simp only [Pc.exec]; split <;> exact ends_ok _
  case gpaMintGet q slot mint i is => exact Ends.bind (ends_getByIndex _ _) fun _ _ => ends_ok _
  case gpaMints q slot shards out =>
    cases shards with
    | nil => exact ends_ok _
    | cons n shards =>
      refine Ends.bind (ends_filterRun _ fun a => Ends.bind (ends_data _ _) fun d _ => ends_allM _ fun f _ => ends_allows _ _ _)
        fun _ _ => ends_ok _
  case convert l out j =>
    cases l with
    | nil => exact ends_ok _
    | cons x l =>
      cases x with
      | keep a => exact ends_ok _
      | conv x slot wv => exact Ends.bind (toSolana_ne_diverge _ _ _ _) fun _ _ => ends_ok _
  case psStart info c => cases c <;> exact ends_ok _
  case psReport info => simp only [Pc.exec]; split <;> exact ends_ok _
  case psFinalize info =>
    obtain ⟨r, hr⟩ := finalizeLoop_total (s.processed.length + 1) s.processed [] info.slot (by omega)
    simp only [Pc.exec, ProcStore.finalize, hr]
    exact ends_ok _
  all_goals exact ends_ok _

/-! ## Recorded parents -/

/-- The slot notification a thread is working on. -/
def Pc.info : Pc → Option SlotInfo
  | .psStart i _ | .psConfirm i | .psUpdate i _ | .psFinal i | .psReport i | .psMissing i | .psFinalize i => some i
  | _ => none

/-- The outcomes of a step that does not panic. -/
inductive Out (E : Env) (σ : Orders) (s : TokenStore) : Pc → TokenStore → Next → Prop where
  | chkIndex (a c) : Out E σ s (.chkIndex a c) s (.go (.chkMultisig a c))
  | chkIndexT (a c i) : s.table.index.find a.pubkey = some i → Out E σ s (.chkIndex a c) s (.go (.classify a c))
  | chkMultisigT (a c) : Out E σ s (.chkMultisig a c) s (.go (.classify a c))
  | chkMultisig (a c) : a.account.owner ≠ tokenId → a.account.owner ≠ token2022Id →
      Out E σ s (.chkMultisig a c) s (.go (.chkBucket a c))
  | chkBucket (a c is) : s.tokens.buckets.find (prefix4 a.pubkey) = some is → Out E σ s (.chkBucket a c) s (.go (.chkAccounts a c))
  | chkBucketT (a c is) : s.tokens.buckets.find (prefix4 a.pubkey) = some is → Out E σ s (.chkBucket a c) s (.go (.classify a c))
  | chkBucketF (a c) : Out E σ s (.chkBucket a c) s (.ret (.updated false))
  | chkAccountsT (a c) : Out E σ s (.chkAccounts a c) s (.go (.classify a c))
  | chkAccountsF (a c) : Out E σ s (.chkAccounts a c) s (.ret (.updated false))
  | classifyN (a c T) : Token.classify E.codecs s.table a = .ok (none, T) →
      Out E σ s (.classify a c) { s with table := T } (.ret (.updated false))
  | classifyI (a c x T) : Token.classify E.codecs s.table a = .ok (some x, T) → c = some .processed ∨ c = some .confirmed →
      Out E σ s (.classify a c) { s with table := T } (.go (.insert a x))
  | classifyA (a c x T) : Token.classify E.codecs s.table a = .ok (some x, T) → ¬ (c = some .processed ∨ c = some .confirmed) →
      Out E σ s (.classify a c) { s with table := T } (.go (.add x ⟨[], .updated true⟩))
  | insert (a x) : Out E σ s (.insert a x) { s with processed := (s.processed.insertAccount a.pubkey x a.wv a.slot).2 }
      (.ret (.updated (s.processed.insertAccount a.pubkey x a.wv a.slot).1))
  | addToken (t k) : Out E σ s (.add (.token t) k) s (.go (.save t k))
  | addMint (m k i) : s.table.index.find m.pubkey = some i → Out E σ s (.add (.mint m) k) s (.go (.putMint m i false k))
  | addMintNew (m k) : s.table.index.find m.pubkey = none → Out E σ s (.add (.mint m) k)
      { s with table := { s.table with counter := wrap32 (s.table.counter + 1) } } (.go (.putMint m s.table.counter true k))
  | addMultisig (m pk k) : Out E σ s (.add (.multisig m pk) k) { s with multisigs := s.multisigs.insert pk m } k.next
  | addDeletedMint (pk k i) : s.table.index.find pk = some i → Out E σ s (.add (.deleted pk) k)
      { s with table := { s.table with index := s.table.index.erase pk } } (.go (.eraseMint i k))
  | addDeleted (pk k) : s.table.index.find pk = none → Out E σ s (.add (.deleted pk) k) s (.go (.again pk k))
  | saveNew (t k i T) : s.tokens.save t = .ok ((i, true), T) → Out E σ s (.save t k) { s with tokens := T } (.go (.pushMint t i k))
  | saveOld (t k i T) : s.tokens.save t = .ok ((i, false), T) → Out E σ s (.save t k) { s with tokens := T } k.next
  | pushMint (t i k) : Out E σ s (.pushMint t i k) { s with byMint := TokenStore.push s.byMint t.mint i } (.go (.pushOwner t i k))
  | pushOwner (t i k) : Out E σ s (.pushOwner t i k) { s with byOwner := TokenStore.push s.byOwner (prefix4 t.owner) i } k.next
  | putMint (m i k) : Out E σ s (.putMint m i false k) { s with mints := s.mints.insert i m } k.next
  | putMintNew (m i k) : Out E σ s (.putMint m i true k)
      { s with mints := s.mints.insert i m, table := { s.table with index := s.table.index.insert m.pubkey i } } k.next
  | eraseMint (i k) : Out E σ s (.eraseMint i k) { s with mints := s.mints.erase i } (.go (.eraseByMint i k))
  | eraseByMint (i k) : Out E σ s (.eraseByMint i k) { s with byMint := s.byMint.erase i } k.next
  | againMint (pk k i) : s.table.index.find pk = some i → Out E σ s (.again pk k)
      { s with table := { s.table with index := s.table.index.erase pk } } k.next
  | again (pk k) : s.table.index.find pk = none → Out E σ s (.again pk k) s (.go (.dropBucket pk k))
  | dropBucket (pk k is) : s.tokens.buckets.find (prefix4 pk) = some is → Out E σ s (.dropBucket pk k)
      { s with tokens := { s.tokens with buckets := s.tokens.buckets.erase (prefix4 pk) } } (.go (.entomb pk is k))
  | dropNone (pk k) : s.tokens.buckets.find (prefix4 pk) = none → Out E σ s (.dropBucket pk k) s k.next
  | entomb (pk is k i) : firstMatch s.tokens.accounts pk is = .ok (some i) → Out E σ s (.entomb pk is k)
      { s with tokens := { s.tokens with accounts := s.tokens.accounts.set i TokenStorage.tombstone.toBytes } } k.next
  | entombNone (pk is k) : firstMatch s.tokens.accounts pk is = .ok none → Out E σ s (.entomb pk is k) s k.next
  | scanSlot (c j) : Out E σ s (.scanSlot c j) s (.go (.scan c s.confirmedSlot j))
  | scanConfirmed (n j r nx) :
      getConfirmed (s.processed.length + 1) s.processed j.keys (List.replicate j.keys.length none) n = .ok r → j.next r = .ok nx →
      Out E σ s (.scan .confirmed n j) s nx
  | scanAgain (n j r) : scanProcessed j.keys n s.processed.reverse (List.replicate j.keys.length none) = (r, true) →
      Out E σ s (.scan .processed n j) s (.go (.rescan n r j))
  | scanDone (n j r nx) : scanProcessed j.keys n s.processed.reverse (List.replicate j.keys.length none) = (r, false) →
      j.next r = .ok nx → Out E σ s (.scan .processed n j) s nx
  | rescan (n ret j r nx) : getConfirmed (s.processed.length + 1) s.processed j.keys ret n = .ok r → j.next r = .ok nx →
      Out E σ s (.rescan n ret j) s nx
  | finMultisig (pk m) : s.multisigs.find pk = some m → Out E σ s (.finMultisig pk) s (.go (.finMultisigSlot pk m))
  | finMultisigN (pk) : s.multisigs.find pk = none → Out E σ s (.finMultisig pk) s (.go (.finIndex pk))
  | finMultisigSlot (pk m r) : multisigToSolana m pk s.finalizedSlot 0 = .ok r →
      Out E σ s (.finMultisigSlot pk m) s (.ret (.account (some r)))
  | finIndex (pk i) : s.table.index.find pk = some i → Out E σ s (.finIndex pk) s (.go (.finMint pk i))
  | finIndexN (pk) : s.table.index.find pk = none → Out E σ s (.finIndex pk) s (.go (.finBucket pk))
  | finMint (pk i m) : s.mints.find i = some m → Out E σ s (.finMint pk i) s (.go (.finMintSlot pk i m))
  | finMintSlot (pk i m) : Out E σ s (.finMintSlot pk i m) s (.ret (.account (some (mintToSolana m s.finalizedSlot 0))))
  | finBucket (pk is) : s.tokens.buckets.find (prefix4 pk) = some is → Out E σ s (.finBucket pk) s (.go (.finAccounts pk))
  | finBucketN (pk) : s.tokens.buckets.find (prefix4 pk) = none → Out E σ s (.finBucket pk) s (.ret (.account none))
  | finAccounts (pk t) : s.tokens.getByPubkey pk = .ok (some t) → t.isDeleted = false →
      Out E σ s (.finAccounts pk) s (.go (.finSlot t))
  | finAccountsN (pk) : Out E σ s (.finAccounts pk) s (.ret (.account none))
  | finSlot (t) : Out E σ s (.finSlot t) s (.go (.convert [.conv (.token t) s.finalizedSlot 0] [] .one))
  | gpaErr (p fs c e) : (p ≠ tokenId ∧ p ≠ token2022Id ∧ e = .wrongIndex) ∨ ((p = tokenId ∨ p = token2022Id) ∧
        e = .shouldContainAnAccountFilter ∧ ∀ l, fs = some l → ownerMintFilter p l = (none, none) ∧ .datasize 82 ∉ l) →
      Out E σ s (.gpaStart p fs c) s (.ret (.accounts (.error e)))
  | gpaOwner (p fs c owner mint) : p = tokenId ∨ p = token2022Id → ownerMintFilter p fs = (some owner, mint) →
      Out E σ s (.gpaStart p (some fs) c) s (.go (.gpaOwner ⟨p, fs, c⟩ s.finalizedSlot owner mint))
  | gpaMint (p fs c mint) : p = tokenId ∨ p = token2022Id → ownerMintFilter p fs = (none, some mint) →
      Out E σ s (.gpaStart p (some fs) c) s (.go (.gpaMint ⟨p, fs, c⟩ s.finalizedSlot mint))
  | gpaMints (p fs c) : p = tokenId ∨ p = token2022Id → ownerMintFilter p fs = (none, none) → .datasize 82 ∈ fs →
      Out E σ s (.gpaStart p (some fs) c) s (.go (.gpaMints ⟨p, fs, c⟩ s.finalizedSlot (List.range E.mintsShards) []))
  | owner (q slot owner mint) :
      Out E σ s (.gpaOwner q slot owner mint) s (.go (.gpaIndex q slot owner mint (s.byOwner.find (prefix4 owner))))
  | indexMint (q slot owner mint is i) : s.table.index.find mint = some i →
      Out E σ s (.gpaIndex q slot owner (some mint) (some is)) s (.go (.gpaGet q slot owner (some i) is))
  | index (q slot owner is) :
      Out E σ s (.gpaIndex q slot owner none (some is)) s (.go (.gpaGet q slot owner none is))
  | indexNone (q slot owner mint) :
      Out E σ s (.gpaIndex q slot owner mint none) s (.go (.convert [] [] (.found q none)))
  | get (q slot owner mint is ts) : s.tokens.getByIndex (σ.set is) = .ok ts →
      Out E σ s (.gpaGet q slot owner mint is) s (.go (.convert (tokenItems slot (ts.filter (fun t => match mint with
        | some i => t.mint = i && t.owner = owner
        | none => t.owner = owner))) [] (.found q none)))
  | mint (q slot mint i) : s.table.index.find mint = some i → Out E σ s (.gpaMint q slot mint) s (.go (.gpaByMint q slot mint i))
  | mintNone (q slot mint) : s.table.index.find mint = none →
      Out E σ s (.gpaMint q slot mint) s (.go (.convert [] [] (.found q none)))
  | byMint (q slot mint i is) : s.byMint.find i = some is →
      Out E σ s (.gpaByMint q slot mint i) s (.go (.gpaMintGet q slot mint i is))
  | byMintNone (q slot mint i) : s.byMint.find i = none →
      Out E σ s (.gpaByMint q slot mint i) s (.go (.convert [] [] (.found q none)))
  | mintGet (q slot mint i is ts) : s.tokens.getByIndex (σ.set is) = .ok ts →
      Out E σ s (.gpaMintGet q slot mint i is) s (.go (.convert (tokenItems slot ts) [] (.found q (some (mint, i)))))
  | mintsEnd (q slot out) : Out E σ s (.gpaMints q slot [] out) s (.go (.convert (out.map .keep) [] (.found q none)))
  | mints (q slot n shards out l) : TokenStorage.filterRun (fun a => do
        let d ← a.account.data.data E.codecs
        Run.allM (fun f => f.allows E.codecs d) q.filters)
          ((s.mints.filter (fun e => E.mintsShard e.1 = n)).map (fun e => mintToSolana e.2 slot 0)) = .ok l →
      Out E σ s (.gpaMints q slot (n :: shards) out) s (.go (.gpaMints q slot shards (out ++ l)))
  | convertEnd (out j) : Out E σ s (.convert [] out j) s (j.next out)
  | keep (a l out j) : Out E σ s (.convert (.keep a :: l) out j) s (.go (.convert l (out ++ [a]) j))
  | conv (x slot wv l out j r) : x.toSolana s.mints slot wv = .ok r →
      Out E σ s (.convert (.conv x slot wv :: l) out j) s (.go (.convert l (out ++ r.toList) j))
  | psProcessed (info) : Out E σ s (.psStart info .processed) { s with processed := s.processed.updateSlotInfo info }
      (.ret (.reported []))
  | psConfirm (info) : s.confirmedSlot < info.slot → Out E σ s (.psStart info .confirmed) s (.go (.psConfirm info))
  | psNoConfirm (info) : ¬ s.confirmedSlot < info.slot → Out E σ s (.psStart info .confirmed) s (.go (.psReport info))
  | psFinal (info) : s.finalizedSlot < info.slot → Out E σ s (.psStart info .finalized) s (.go (.psUpdate info .finalized))
  | psNoFinal (info) : ¬ s.finalizedSlot < info.slot → Out E σ s (.psStart info .finalized) s (.go (.psFinalize info))
  | confirm (info) : Out E σ s (.psConfirm info) { s with confirmedSlot := info.slot } (.go (.psUpdate info .confirmed))
  | updateFinal (info) : Out E σ s (.psUpdate info .finalized) { s with processed := s.processed.updateSlotInfo info }
      (.go (.psFinal info))
  | update (info c) : c ≠ .finalized → Out E σ s (.psUpdate info c) { s with processed := s.processed.updateSlotInfo info }
      (.go (.psReport info))
  | final (info) : Out E σ s (.psFinal info) { s with finalizedSlot := info.slot } (.go (.psFinalize info))
  | report (info e) : BMap.find s.processed info.slot = some e → Out E σ s (.psReport info) s
      (.go (.convert (e.accounts.map (fun x => .conv x.2.account info.slot x.2.wv)) [] .confirmed))
  | reportNone (info) : BMap.find s.processed info.slot = none → Out E σ s (.psReport info) s (.go (.psMissing info))
  | missing (info) : Out E σ s (.psMissing info) { s with processed := s.processed.updateSlotInfo info } (.ret (.reported []))
  | finalize (info P l) : s.processed.finalize info.slot = .ok (P, l) → Out E σ s (.psFinalize info) { s with processed := P }
      (.go (.convert ((σ.final l).map (fun x => .conv x.1.account x.2 x.1.wv)) [] (.finalized (σ.final l))))

theorem exec_out {E : Env} {σ : Orders} {s s' : TokenStore} {p : Pc} {n : Next} (h : p.exec E σ s = .ok (s', n)) : Out E σ s p s' n := by
  cases p
  case idle => simp [Pc.exec] at h
  case loops => simp [Pc.exec] at h
  case chkIndex a c =>
    simp only [Pc.exec, taken, Run.ok.injEq, Prod.mk.injEq] at h
    obtain ⟨rfl, rfl⟩ := h
    split
    · rename_i h
      obtain ⟨i, hi⟩ := Option.isSome_iff_exists.1 h
      exact .chkIndexT a c i hi
    · exact .chkIndex a c
  case chkMultisig a c =>
    simp only [Pc.exec, taken, Run.ok.injEq, Prod.mk.injEq] at h
    obtain ⟨rfl, rfl⟩ := h
    split
    · exact .chkMultisigT a c
    · rename_i hn
      exact .chkMultisig a c (fun e => hn (.inr (.inl e))) (fun e => hn (.inr (.inr e)))
  case chkBucket a c =>
    simp only [Pc.exec] at h
    split at h
    · rename_i is hi
      split at h
      · simp only [Run.ok.injEq, Prod.mk.injEq] at h
        obtain ⟨rfl, rfl⟩ := h
        exact .chkBucket a c is hi
      · simp only [Run.bind_eq_ok, taken, Run.pure_eq, Run.ok.injEq, Prod.mk.injEq] at h
        obtain ⟨-, -, rfl, rfl⟩ := h
        exact .chkBucketT a c is hi
    · simp only [taken, Run.ok.injEq, Prod.mk.injEq] at h
      obtain ⟨rfl, rfl⟩ := h
      exact .chkBucketF a c
  case chkAccounts a c =>
    simp only [Pc.exec, Run.bind_eq_ok, Run.pure_eq, Run.ok.injEq, Prod.mk.injEq] at h
    obtain ⟨b, -, rfl, rfl⟩ := h
    cases b with
    | none => exact .chkAccountsF a c
    | some b => exact .chkAccountsT a c
  case classify a c =>
    simp only [Pc.exec, Run.bind_eq_ok, Run.pure_eq, Run.ok.injEq, Prod.mk.injEq] at h
    obtain ⟨⟨x, T⟩, hx, rfl, rfl⟩ := h
    cases x with
    | none => exact .classifyN a c T hx
    | some x =>
      simp only [decoded]
      split
      · rename_i hc; exact .classifyI a c x T hx hc
      · rename_i hc; exact .classifyA a c x T hx hc
  case insert a x =>
    simp only [Pc.exec, Run.ok.injEq, Prod.mk.injEq] at h
    obtain ⟨rfl, rfl⟩ := h
    exact .insert a x
  case add x k =>
    cases x with
    | token t =>
      simp only [Pc.exec, Run.ok.injEq, Prod.mk.injEq] at h; obtain ⟨rfl, rfl⟩ := h
      exact .addToken t k
    | mint m =>
      simp only [Pc.exec] at h
      split at h <;> simp only [Run.ok.injEq, Prod.mk.injEq] at h <;> obtain ⟨rfl, rfl⟩ := h
      · exact .addMint m k _ ‹_›
      · exact .addMintNew m k ‹_›
    | multisig m pk =>
      simp only [Pc.exec, Run.ok.injEq, Prod.mk.injEq] at h; obtain ⟨rfl, rfl⟩ := h
      exact .addMultisig m pk k
    | deleted pk =>
      simp only [Pc.exec] at h
      split at h <;> simp only [Run.ok.injEq, Prod.mk.injEq] at h <;> obtain ⟨rfl, rfl⟩ := h
      · exact .addDeletedMint pk k _ ‹_›
      · exact .addDeleted pk k ‹_›
  case save t k =>
    simp only [Pc.exec, Run.bind_eq_ok, Run.pure_eq, Run.ok.injEq, Prod.mk.injEq] at h
    obtain ⟨⟨⟨i, added⟩, tk⟩, hs, rfl, rfl⟩ := h
    cases added with
    | true => exact .saveNew t k i tk hs
    | false => exact .saveOld t k i tk hs
  case pushMint t i k =>
    simp only [Pc.exec, Run.ok.injEq, Prod.mk.injEq] at h; obtain ⟨rfl, rfl⟩ := h
    exact .pushMint t i k
  case pushOwner t i k =>
    simp only [Pc.exec, Run.ok.injEq, Prod.mk.injEq] at h; obtain ⟨rfl, rfl⟩ := h
    exact .pushOwner t i k
  case putMint m i new k =>
    simp only [Pc.exec, Run.ok.injEq, Prod.mk.injEq] at h; obtain ⟨rfl, rfl⟩ := h
    cases new with
    | true => exact .putMintNew m i k
    | false => exact .putMint m i k
  case eraseMint i k =>
    simp only [Pc.exec, Run.ok.injEq, Prod.mk.injEq] at h; obtain ⟨rfl, rfl⟩ := h
    exact .eraseMint i k
  case eraseByMint i k =>
    simp only [Pc.exec, Run.ok.injEq, Prod.mk.injEq] at h; obtain ⟨rfl, rfl⟩ := h
    exact .eraseByMint i k
  case again pk k =>
    simp only [Pc.exec] at h
    split at h <;> simp only [Run.ok.injEq, Prod.mk.injEq] at h <;> obtain ⟨rfl, rfl⟩ := h
    · exact .againMint pk k _ ‹_›
    · exact .again pk k ‹_›
  case dropBucket pk k =>
    simp only [Pc.exec] at h
    split at h <;> simp only [Run.ok.injEq, Prod.mk.injEq] at h <;> obtain ⟨rfl, rfl⟩ := h
    · exact .dropBucket pk k _ ‹_›
    · exact .dropNone pk k ‹_›
  case entomb pk is k =>
    simp only [Pc.exec, Run.bind_eq_ok] at h
    obtain ⟨o, ho, h⟩ := h
    split at h <;> simp only [Run.pure_eq, Run.ok.injEq, Prod.mk.injEq] at h <;> obtain ⟨rfl, rfl⟩ := h
    · exact .entomb pk is k _ ho
    · exact .entombNone pk is k ho
  case scanSlot c j =>
    simp only [Pc.exec, Run.ok.injEq, Prod.mk.injEq] at h; obtain ⟨rfl, rfl⟩ := h
    exact .scanSlot c j
  case scan c n j =>
    cases c with
    | finalized => simp [Pc.exec] at h
    | confirmed =>
      simp only [Pc.exec, Run.bind_eq_ok, Run.pure_eq, Run.ok.injEq, Prod.mk.injEq] at h
      obtain ⟨r, hr, nx, hn, rfl, rfl⟩ := h
      exact .scanConfirmed _ j r _ hr hn
    | processed =>
      simp only [Pc.exec] at h
      split at h
      · rename_i r hr
        simp only [Run.ok.injEq, Prod.mk.injEq] at h; obtain ⟨rfl, rfl⟩ := h
        exact .scanAgain _ j r hr
      · rename_i r hr
        simp only [Run.bind_eq_ok, Run.pure_eq, Run.ok.injEq, Prod.mk.injEq] at h
        obtain ⟨nx, hn, rfl, rfl⟩ := h
        exact .scanDone _ j r _ hr hn
  case rescan n ret j =>
    simp only [Pc.exec, Run.bind_eq_ok, Run.pure_eq, Run.ok.injEq, Prod.mk.injEq] at h
    obtain ⟨r, hr, nx, hn, rfl, rfl⟩ := h
    exact .rescan _ ret j r _ hr hn
  case finMultisig pk =>
    simp only [Pc.exec] at h
    split at h <;> simp only [Run.ok.injEq, Prod.mk.injEq] at h <;> obtain ⟨rfl, rfl⟩ := h
    · exact .finMultisig pk _ ‹_›
    · exact .finMultisigN pk ‹_›
  case finMultisigSlot pk m =>
    simp only [Pc.exec, Run.bind_eq_ok, Run.pure_eq, Run.ok.injEq, Prod.mk.injEq] at h
    obtain ⟨r, hr, rfl, rfl⟩ := h
    exact .finMultisigSlot pk m r hr
  case finIndex pk =>
    simp only [Pc.exec] at h
    split at h <;> simp only [Run.ok.injEq, Prod.mk.injEq] at h <;> obtain ⟨rfl, rfl⟩ := h
    · exact .finIndex pk _ ‹_›
    · exact .finIndexN pk ‹_›
  case finMint pk i =>
    simp only [Pc.exec, Run.bind_eq_ok, Run.pure_eq, Run.ok.injEq, Prod.mk.injEq] at h
    obtain ⟨m, hm, rfl, rfl⟩ := h
    refine .finMint pk i m ?_
    cases hf : s.mints.find i <;> simp [hf, Run.unwrap] at hm
    rw [hm]
  case finMintSlot pk i m =>
    simp only [Pc.exec, Run.ok.injEq, Prod.mk.injEq] at h; obtain ⟨rfl, rfl⟩ := h
    exact .finMintSlot pk i m
  case finBucket pk =>
    simp only [Pc.exec] at h
    split at h <;> simp only [Run.ok.injEq, Prod.mk.injEq] at h <;> obtain ⟨rfl, rfl⟩ := h
    · exact .finBucket pk _ ‹_›
    · exact .finBucketN pk ‹_›
  case finAccounts pk =>
    simp only [Pc.exec, Run.bind_eq_ok] at h
    obtain ⟨o, ho, h⟩ := h
    split at h <;> simp only [Run.pure_eq, Run.ok.injEq, Prod.mk.injEq] at h <;> obtain ⟨rfl, rfl⟩ := h
    · split
      · exact .finAccountsN pk
      · rename_i hd; exact .finAccounts pk _ ho (by simpa using hd)
    · exact .finAccountsN pk
  case finSlot t =>
    simp only [Pc.exec, Run.ok.injEq, Prod.mk.injEq] at h; obtain ⟨rfl, rfl⟩ := h
    exact .finSlot t
  case gpaStart p fs c =>
    simp only [Pc.exec] at h
    split at h
    · rename_i hp
      simp only [Run.ok.injEq, Prod.mk.injEq] at h; obtain ⟨rfl, rfl⟩ := h
      exact .gpaErr p fs c _ (.inl ⟨hp.1, hp.2, rfl⟩)
    · rename_i hp
      have hp : p = tokenId ∨ p = token2022Id := by
        by_cases h1 : p = tokenId
        · exact .inl h1
        · by_cases h2 : p = token2022Id
          · exact .inr h2
          · exact absurd ⟨h1, h2⟩ hp
      split at h
      · simp only [Run.ok.injEq, Prod.mk.injEq] at h; obtain ⟨rfl, rfl⟩ := h
        exact .gpaErr p _ c _ (.inr ⟨hp, rfl, fun l hl => by simp at hl⟩)
      · split at h
        · simp only [Run.ok.injEq, Prod.mk.injEq] at h; obtain ⟨rfl, rfl⟩ := h
          exact .gpaOwner p _ c _ _ hp ‹_›
        · simp only [Run.ok.injEq, Prod.mk.injEq] at h; obtain ⟨rfl, rfl⟩ := h
          exact .gpaMint p _ c _ hp ‹_›
        · split at h
          · rename_i hd
            simp only [Run.ok.injEq, Prod.mk.injEq] at h; obtain ⟨rfl, rfl⟩ := h
            exact .gpaMints p _ c hp ‹_› (by simpa using hd)
          · rename_i hd
            simp only [Run.ok.injEq, Prod.mk.injEq] at h; obtain ⟨rfl, rfl⟩ := h
            refine .gpaErr p _ c _ (.inr ⟨hp, rfl, fun l hl => ?_⟩)
            simp only [Option.some.injEq] at hl
            subst hl
            exact ⟨‹_›, by simpa using hd⟩
  case gpaOwner q slot owner mint =>
    simp only [Pc.exec, Run.ok.injEq, Prod.mk.injEq] at h; obtain ⟨rfl, rfl⟩ := h
    exact .owner q slot owner mint
  case gpaIndex q slot owner mint is =>
    simp only [Pc.exec] at h
    rw [Run.bind_eq_ok] at h
    obtain ⟨mi, hm, h⟩ := h
    cases is with
    | none =>
      simp only [Run.pure_eq, Run.ok.injEq, Prod.mk.injEq] at h; obtain ⟨rfl, rfl⟩ := h
      exact .indexNone q slot owner mint
    | some is =>
      simp only [Run.pure_eq, Run.ok.injEq, Prod.mk.injEq] at h; obtain ⟨rfl, rfl⟩ := h
      cases mint with
      | none =>
        simp only [Run.pure_eq, Run.ok.injEq] at hm
        subst hm
        exact .index q slot owner is
      | some mint =>
        simp only [Run.bind_eq_ok, Run.pure_eq, Run.ok.injEq] at hm
        obtain ⟨i, hi, rfl⟩ := hm
        refine .indexMint q slot owner mint is i ?_
        cases hf : s.table.index.find mint <;> simp [hf, Run.unwrap] at hi
        rw [hi]
  case gpaGet q slot owner mint is =>
    simp only [Pc.exec, Run.bind_eq_ok, Run.pure_eq, Run.ok.injEq, Prod.mk.injEq] at h
    obtain ⟨ts, ht, rfl, rfl⟩ := h
    exact .get q slot owner mint is ts ht
  case gpaMint q slot mint =>
    simp only [Pc.exec] at h
    split at h <;> simp only [Run.ok.injEq, Prod.mk.injEq] at h <;> obtain ⟨rfl, rfl⟩ := h
    · exact .mint q slot mint _ ‹_›
    · exact .mintNone q slot mint ‹_›
  case gpaByMint q slot mint i =>
    simp only [Pc.exec] at h
    split at h <;> simp only [Run.ok.injEq, Prod.mk.injEq] at h <;> obtain ⟨rfl, rfl⟩ := h
    · exact .byMint q slot mint i _ ‹_›
    · exact .byMintNone q slot mint i ‹_›
  case gpaMintGet q slot mint i is =>
    simp only [Pc.exec, Run.bind_eq_ok, Run.pure_eq, Run.ok.injEq, Prod.mk.injEq] at h
    obtain ⟨ts, ht, rfl, rfl⟩ := h
    exact .mintGet q slot mint i is ts ht
  case gpaMints q slot shards out =>
    cases shards with
    | nil =>
      simp only [Pc.exec, Run.ok.injEq, Prod.mk.injEq] at h; obtain ⟨rfl, rfl⟩ := h
      exact .mintsEnd q slot out
    | cons n shards =>
      simp only [Pc.exec, Run.bind_eq_ok, Run.pure_eq, Run.ok.injEq, Prod.mk.injEq] at h
      obtain ⟨l, hl, rfl, rfl⟩ := h
      exact .mints q slot n shards out l hl
  case convert l out j =>
    cases l with
    | nil =>
      simp only [Pc.exec, Run.ok.injEq, Prod.mk.injEq] at h; obtain ⟨rfl, rfl⟩ := h
      exact .convertEnd out j
    | cons x l =>
      cases x with
      | keep a =>
        simp only [Pc.exec, Run.ok.injEq, Prod.mk.injEq] at h; obtain ⟨rfl, rfl⟩ := h
        exact .keep a l out j
      | conv x slot wv =>
        simp only [Pc.exec, Run.bind_eq_ok, Run.pure_eq, Run.ok.injEq, Prod.mk.injEq] at h
        obtain ⟨r, hr, rfl, rfl⟩ := h
        exact .conv x slot wv l out j r hr
  case psStart info c =>
    cases c with
    | processed =>
      simp only [Pc.exec, Run.ok.injEq, Prod.mk.injEq] at h; obtain ⟨rfl, rfl⟩ := h
      exact .psProcessed info
    | confirmed =>
      simp only [Pc.exec, Run.ok.injEq, Prod.mk.injEq] at h; obtain ⟨rfl, rfl⟩ := h
      split
      · exact .psConfirm info ‹_›
      · exact .psNoConfirm info ‹_›
    | finalized =>
      simp only [Pc.exec, Run.ok.injEq, Prod.mk.injEq] at h; obtain ⟨rfl, rfl⟩ := h
      split
      · exact .psFinal info ‹_›
      · exact .psNoFinal info ‹_›
  case psConfirm info =>
    simp only [Pc.exec, Run.ok.injEq, Prod.mk.injEq] at h; obtain ⟨rfl, rfl⟩ := h
    exact .confirm info
  case psUpdate info c =>
    simp only [Pc.exec, Run.ok.injEq, Prod.mk.injEq] at h; obtain ⟨rfl, rfl⟩ := h
    cases c with
    | finalized => exact .updateFinal info
    | confirmed => exact .update info .confirmed (by simp)
    | processed => exact .update info .processed (by simp)
  case psFinal info =>
    simp only [Pc.exec, Run.ok.injEq, Prod.mk.injEq] at h; obtain ⟨rfl, rfl⟩ := h
    exact .final info
  case psReport info =>
    simp only [Pc.exec] at h
    split at h <;> simp only [Run.ok.injEq, Prod.mk.injEq] at h <;> obtain ⟨rfl, rfl⟩ := h
    · exact .report info _ ‹_›
    · exact .reportNone info ‹_›
  case psMissing info =>
    simp only [Pc.exec, Run.ok.injEq, Prod.mk.injEq] at h; obtain ⟨rfl, rfl⟩ := h
    exact .missing info
  case psFinalize info =>
    simp only [Pc.exec, Run.bind_eq_ok, Run.pure_eq, Run.ok.injEq, Prod.mk.injEq] at h
    obtain ⟨⟨P, l⟩, hf, rfl, rfl⟩ := h
    exact .finalize info P l hf

theorem after_next {k : After} {p : Pc} (h : k.next = .go p) : ∃ x k', p = .add x k' := by
  unfold After.next at h
  split at h
  · simp at h
  · simp only [Next.go.injEq] at h; exact ⟨_, _, h.symm⟩

theorem job_next {out : List AccountData} {j : Job} {p : Pc} (h : j.next out = .go p) :
    (∃ x k', p = .add x k') ∨ ∃ c l, p = .scanSlot c l := by
  cases j with
  | one => simp [Job.next] at h
  | found q mi =>
    simp only [Job.next] at h
    split at h
    · simp at h
    · simp only [Next.go.injEq] at h; exact .inr ⟨_, _, h.symm⟩
  | overlay => simp [Job.next] at h
  | confirmed => simp [Job.next] at h
  | finalized l => exact .inl (after_next h)

theorem scan_next {r : Answers} {j : Scan} {n : Next} (h : j.next r = .ok n) :
    (∃ l out j, n = .go (.convert l out j)) ∨ ∃ pk, n = .go (.finMultisig pk) := by
  cases j with
  | one pk =>
    simp only [Scan.next, Run.bind_eq_ok] at h
    obtain ⟨o, -, h⟩ := h
    split at h <;> simp only [Run.pure_eq, Run.ok.injEq] at h
    · exact .inl ⟨_, _, _, h.symm⟩
    · exact .inr ⟨_, h.symm⟩
  | overlay l =>
    simp only [Scan.next, Run.ok.injEq] at h
    exact .inl ⟨_, _, _, h.symm⟩

/-- A step keeps the slot notification the thread is working on. -/
theorem out_info {E : Env} {σ : Orders} {s s' : TokenStore} {p p' : Pc} {n : Next} (h : Out E σ s p s' n) (hn : n = .go p')
    {i : SlotInfo} (hi : p'.info = some i) : p.info = some i := by
  cases h <;>
    first
    | (cases hn <;> first | exact hi | (simp [Pc.info] at hi; done))
    | (obtain ⟨x, k', rfl⟩ := after_next hn; simp [Pc.info] at hi)
    | (rcases job_next hn with ⟨x, k', rfl⟩ | ⟨x, k', rfl⟩ <;> simp [Pc.info] at hi)
    | (rename_i hj; rcases scan_next hj with ⟨l, out, j, h⟩ | ⟨pk, h⟩ <;> rw [h] at hn <;> cases hn <;> simp [Pc.info] at hi)

theorem out_loops {E : Env} {σ : Orders} {s s' : TokenStore} {p : Pc} {l : List (Lock × Mode)} : ¬ Out E σ s p s' (.go (.loops l)) := by
  intro h
  generalize hn : Next.go (.loops l) = n at h
  cases h <;>
    first
    | (cases hn; done)
    | (obtain ⟨x, k', h⟩ := after_next hn.symm; simp at h)
    | (rcases job_next hn.symm with ⟨x, k', h⟩ | ⟨x, k', h⟩ <;> simp at h)
    | (rename_i hj; rcases scan_next hj with ⟨l, out, j, h⟩ | ⟨pk, h⟩ <;> rw [h] at hn <;> cases hn)

theorem out_idle {E : Env} {σ : Orders} {s s' : TokenStore} {p : Pc} : ¬ Out E σ s p s' (.go .idle) := by
  intro h
  generalize hn : Next.go .idle = n at h
  cases h <;>
    first
    | (cases hn; done)
    | (obtain ⟨x, k', h⟩ := after_next hn.symm; simp at h)
    | (rcases job_next hn.symm with ⟨x, k', h⟩ | ⟨x, k', h⟩ <;> simp at h)
    | (rename_i hj; rcases scan_next hj with ⟨l, out, j, h⟩ | ⟨pk, h⟩ <;> rw [h] at hn <;> cases hn)

/-- Unfinalized states are only changed by entering an account, noting a slot, and finalizing. -/
theorem out_processed {E : Env} {σ : Orders} {s s' : TokenStore} {p : Pc} {n : Next} (h : Out E σ s p s' n) :
    s'.processed = s.processed ∨ (∃ a x, p = .insert a x ∧ s'.processed = (s.processed.insertAccount a.pubkey x a.wv a.slot).2) ∨
    (∃ i, p.info = some i ∧ s'.processed = s.processed.updateSlotInfo i) ∨
    ∃ i P l, p = .psFinalize i ∧ s.processed.finalize i.slot = .ok (P, l) ∧ s'.processed = P := by
  cases h
  case insert a x => exact .inr (.inl ⟨a, x, rfl, rfl⟩)
  case psProcessed i => exact .inr (.inr (.inl ⟨i, rfl, rfl⟩))
  case updateFinal i => exact .inr (.inr (.inl ⟨i, rfl, rfl⟩))
  case update i c h => exact .inr (.inr (.inl ⟨i, rfl, rfl⟩))
  case missing i => exact .inr (.inr (.inl ⟨i, rfl, rfl⟩))
  case finalize i P l h => exact .inr (.inr (.inr ⟨i, P, l, rfl, h, rfl⟩))
  all_goals exact .inl rfl

theorem finalize_sub {P P' : ProcStore} {slot : Nat} {l : List (Processed × Nat)} (hs : BMap.Sorted P)
    (h : P.finalize slot = .ok (P', l)) : BMap.Sorted P' ∧ ∀ k e, BMap.find P' k = some e → BMap.find P k = some e := by
  simp only [ProcStore.finalize, Run.bind_eq_ok, Run.pure_eq, Run.ok.injEq, Prod.mk.injEq] at h
  obtain ⟨⟨P1, found⟩, hl, rfl, -⟩ := h
  obtain ⟨h1, h2, h3, -, -⟩ := finalizeLoop_spec _ hl hs AMap.distinct_nil
  refine ⟨List.Pairwise.sublist (List.dropWhile_sublist _) h1, fun k e he => ?_⟩
  rw [find_dropUpTo h1] at he
  split at he
  · simp at he
  · by_cases hk : OnChain P slot k
    · rw [(h3 k).1 hk] at he; simp at he
    · rw [(h3 k).2 hk] at he; exact he

/-! ## Executions -/

@[simp] theorem upd_self (f : Nat → Pc) (t : Nat) (p : Pc) : upd f t p t = p := by simp [upd]
theorem upd_other {f : Nat → Pc} {t x : Nat} {p : Pc} (h : x ≠ t) : upd f t p x = f x := by simp [upd, h]

theorem active_ne {p : Pc} (h : p.active) : p ≠ .idle := by rintro rfl; exact h

/-- The outcomes of a step of a thread. -/
theorem work_cases {E : Env} {w w' : World} (h : Work E w w') : ∃ t, (w.pc t).active ∧ w.Granted E t ∧
    ((∃ σ s p, Out E σ w.st (w.pc t) s (.go p) ∧ w' = { w with st := s, pc := upd w.pc t p } ∧ p.left < (w.pc t).left) ∨
     (∃ σ s r, Out E σ w.st (w.pc t) s (.ret r) ∧ w' = { st := s, pc := upd w.pc t .idle, log := w.log ++ [(t, .ret r)] }) ∨
     (∃ σ, (w.pc t).exec E σ w.st = .panic ∧ w' = { w with pc := upd w.pc t .idle, log := w.log ++ [(t, .ret .panicked)] }) ∨
     ∃ σ, (w.pc t).exec E σ w.st = .diverge ∧
      w' = { w with pc := upd w.pc t (.loops ((w.pc t).holds E ++ ((w.pc t).wants E).toList)) }) := by
  obtain ⟨t, σ, hi, hg⟩ := h
  refine ⟨t, hi, hg, ?_⟩
  match he : (w.pc t).exec E σ w.st with
  | .ok (s, .go p) => exact .inl ⟨σ, s, p, exec_out he, rfl, exec_left he⟩
  | .ok (s, .ret r) => exact .inr (.inl ⟨σ, s, r, exec_out he, rfl⟩)
  | .panic => exact .inr (.inr (.inl ⟨σ, he, rfl⟩))
  | .diverge => exact .inr (.inr (.inr ⟨σ, he, rfl⟩))

theorem finite_threads {E : Env} {w : World} (h : Reachable E w) : ∃ N, ∀ t, N ≤ t → w.pc t = .idle := by
  induction h with
  | refl => exact ⟨0, fun _ _ => rfl⟩
  | tail _ hs ih =>
    obtain ⟨N, hN⟩ := ih
    have put : ∀ (pc : Nat → Pc) t p, (∀ u, N ≤ u → pc u = .idle) → ∃ N, ∀ u, N ≤ u → upd pc t p u = .idle := by
      intro pc t p h
      refine ⟨N + t + 1, fun u hu => ?_⟩
      rw [upd_other (by omega)]
      exact h u (by omega)
    cases hs with
    | work hw =>
      obtain ⟨t, -, -, ⟨_, _, _, -, rfl, -⟩ | ⟨_, _, _, -, rfl⟩ | ⟨_, -, rfl⟩ | ⟨_, -, rfl⟩⟩ := work_cases hw <;> exact put _ _ _ hN
    | call t k => exact put _ _ _ hN

theorem Steps.trans {E : Env} {w w' w'' : World} (h : Steps E w w') (h' : Steps E w' w'') : Steps E w w'' := by
  induction h' with
  | refl => exact h
  | tail _ hs ih => exact .tail ih hs

/-- **No deadlock**: as long as a call is being executed and no thread is in an endless loop, a thread that is in a call gets the
lock it asks for. -/
theorem granted {E : Env} {w : World} (hr : Reachable E w) (hl : ∀ t l, w.pc t ≠ .loops l) (hb : ∃ t, w.pc t ≠ .idle) :
    ∃ t, (w.pc t).active ∧ w.Granted E t := by
  classical
  obtain ⟨N, hN⟩ := finite_threads hr
  have act : ∀ t, w.pc t ≠ .idle → (w.pc t).active := by
    intro t ht
    have := hl t
    cases h : w.pc t <;> simp_all [Pc.active]
  -- what a thread asks for, as a number
  let ask : Nat → Nat := fun t => match (w.pc t).wants E with | some (l, _) => l.rank + 1 | none => 0
  by_cases hn : ∃ t, w.pc t ≠ .idle ∧ (w.pc t).wants E = none
  · obtain ⟨t, ht, hw⟩ := hn
    exact ⟨t, act t ht, fun l m h => by rw [hw] at h; simp at h⟩
  · have hall : ∀ t, w.pc t ≠ .idle → ∃ l m, (w.pc t).wants E = some (l, m) := by
      intro t ht
      cases h : (w.pc t).wants E with
      | none => exact absurd ⟨t, ht, h⟩ hn
      | some x => exact ⟨x.1, x.2, rfl⟩
    obtain ⟨t0, ht0⟩ := hb
    have hlt : ∀ t, w.pc t ≠ .idle → t < N := fun t ht => by
      by_contra hge
      exact ht (hN t (by omega))
    obtain ⟨t, ht, hmax⟩ := Finset.exists_max_image ((Finset.range N).filter (fun t => w.pc t ≠ .idle)) ask
      ⟨t0, by simp [hlt t0 ht0, ht0]⟩
    simp only [Finset.mem_filter, Finset.mem_range] at ht hmax
    obtain ⟨l, m, hw⟩ := hall t ht.2
    -- nobody has this lock
    have free : ∀ u m', (l, m') ∉ (w.pc u).holds E := by
      intro u m' hu
      have hui : w.pc u ≠ .idle := by intro h; rw [h] at hu; simp [Pc.holds] at hu
      obtain ⟨l', m'', hw'⟩ := hall u hui
      have h1 := rank_lt hu hw'
      have h2 := hmax u ⟨hlt u hui, hui⟩
      simp only [ask, hw, hw'] at h2
      omega
    by_cases hwr : ∃ u, (w.pc u).wants E = some (l, .write)
    · obtain ⟨u, hu⟩ := hwr
      refine ⟨u, act u (by intro h; rw [h] at hu; simp [Pc.wants] at hu), fun l' m' h => ?_⟩
      rw [hu] at h
      simp only [Option.some.injEq, Prod.mk.injEq] at h
      obtain ⟨rfl, rfl⟩ := h
      exact ⟨fun u m' hm => absurd hm (free u m'), by simp⟩
    · refine ⟨t, act t ht.2, fun l' m' h => ?_⟩
      rw [hw] at h
      simp only [Option.some.injEq, Prod.mk.injEq] at h
      obtain ⟨rfl, rfl⟩ := h
      exact ⟨fun u m' hm => absurd hm (free u m'), fun _ _ u hu => hwr ⟨u, hu⟩⟩

theorem ParentsOlder.left {log l : List (Nat × Event)} (h : ParentsOlder (log ++ l)) : ParentsOlder log :=
  fun t info c hm => h t info c (List.mem_append_left _ hm)

theorem parentsOlder_work {E : Env} {w w' : World} (h : ParentsOlder w.log) (hw : Work E w w') : ParentsOlder w'.log := by
  obtain ⟨x, -, -, ⟨_, _, _, -, rfl, -⟩ | ⟨_, _, _, -, rfl⟩ | ⟨_, -, rfl⟩ | ⟨_, -, rfl⟩⟩ := work_cases hw <;> intro t info c hm
  · exact h t info c hm
  · exact h t info c (by simpa using hm)
  · exact h t info c (by simpa using hm)
  · exact h t info c hm

/-- Recorded parents are older than their slots, and no thread is in an endless loop. -/
theorem parents_below {E : Env} {w : World} (hr : Reachable E w) (hp : ParentsOlder w.log) :
    BMap.Sorted w.st.processed ∧ ParentsBelow w.st.processed ∧ (∀ t i, (w.pc t).info = some i → i.parent < i.slot) ∧
      ∀ t l, w.pc t ≠ .loops l := by
  induction hr with
  | refl =>
    exact ⟨List.Pairwise.nil, fun k e p h => by simp [World.init, TokenStore.empty] at h,
      fun t i h => by simp [World.init, Pc.info] at h, fun t l => by simp [World.init]⟩
  | @tail w w' _ hs ih =>
    have put : ∀ t p, (∀ t i, (w.pc t).info = some i → i.parent < i.slot) → (∀ t l, w.pc t ≠ .loops l) →
        (∀ i, p.info = some i → i.parent < i.slot) → (∀ l, p ≠ .loops l) →
        (∀ u i, (upd w.pc t p u).info = some i → i.parent < i.slot) ∧ ∀ u l, upd w.pc t p u ≠ .loops l := by
      intro t p h3 h4 g3 g4
      refine ⟨fun u i hu => ?_, fun u l hu => ?_⟩
      · by_cases e : u = t
        · subst e; rw [upd_self] at hu; exact g3 i hu
        · rw [upd_other e] at hu; exact h3 u i hu
      · by_cases e : u = t
        · subst e; rw [upd_self] at hu; exact g4 l hu
        · rw [upd_other e] at hu; exact h4 u l hu
    have idle : (∀ i, Pc.idle.info = some i → i.parent < i.slot) ∧ ∀ l, Pc.idle ≠ .loops l :=
      ⟨fun i h => by simp [Pc.info] at h, by simp⟩
    cases hs with
    | work hw =>
      obtain ⟨t, hi, -, h⟩ := work_cases hw
      have hst : ∀ σ s n, Out E σ w.st (w.pc t) s n → BMap.Sorted w.st.processed → ParentsBelow w.st.processed →
          (∀ t i, (w.pc t).info = some i → i.parent < i.slot) → BMap.Sorted s.processed ∧ ParentsBelow s.processed := by
        intro σ s n ho h1 h2 h3
        rcases out_processed ho with h | ⟨a, x, -, h⟩ | ⟨i, hi, h⟩ | ⟨i, P, l, -, hf, h⟩
        · rw [h]; exact ⟨h1, h2⟩
        · rw [h]
          exact ⟨sorted_insertAccount h1 _ _ _ _, parentsIn_insertAccount (R := fun k p => p < k) h2 _ _ _ _⟩
        · rw [h]
          exact ⟨sorted_updateSlotInfo h1 _, parentsIn_updateSlotInfo (R := fun k p => p < k) h2 (h3 t i hi)⟩
        · rw [h]
          obtain ⟨g1, g2⟩ := finalize_sub h1 hf
          exact ⟨g1, parentsIn_sub (R := fun k p => p < k) h2 g2⟩
      rcases h with ⟨σ, s, p, ho, rfl, hlt⟩ | ⟨σ, s, r, ho, rfl⟩ | ⟨σ, -, rfl⟩ | ⟨σ, hd, rfl⟩
      · obtain ⟨h1, h2, h3, h4⟩ := ih hp
        obtain ⟨g1, g2⟩ := hst σ s _ ho h1 h2 h3
        exact ⟨g1, g2, put t p h3 h4 (fun i hi => h3 t i (out_info ho rfl hi)) (fun l hl => out_loops (l := l) (hl ▸ ho))⟩
      · obtain ⟨h1, h2, h3, h4⟩ := ih hp.left
        obtain ⟨g1, g2⟩ := hst σ s _ ho h1 h2 h3
        exact ⟨g1, g2, put t .idle h3 h4 idle.1 idle.2⟩
      · obtain ⟨h1, h2, h3, h4⟩ := ih hp.left
        exact ⟨h1, h2, put t .idle h3 h4 idle.1 idle.2⟩
      · exact absurd hd (ends_exec hi (ih hp).2.1)
    | call t k hi =>
      obtain ⟨h1, h2, h3, h4⟩ := ih hp.left
      refine ⟨h1, h2, put t _ h3 h4 (fun i hu => ?_) (fun l hu => ?_)⟩
      · cases k with
        | process info c =>
          simp only [Call.start, Pc.info, Option.some.injEq] at hu
          subst hu
          exact hp t info c (by simp)
        | get pk c => simp only [Call.start] at hu; split at hu <;> simp [Pc.info] at hu
        | _ => simp [Call.start, Pc.info] at hu
      · cases k with
        | get pk c => simp only [Call.start] at hu; split at hu <;> simp at hu
        | _ => simp [Call.start] at hu

/-- A state in which a call is being executed has a next step. -/
theorem can_work {E : Env} {w : World} (σ : Orders) (hr : Reachable E w) (hp : ParentsOlder w.log) (hb : ∃ t, w.pc t ≠ .idle) :
    ∃ w', Work E w w' := by
  obtain ⟨t, hi, hg⟩ := granted hr (parents_below hr hp).2.2.2 hb
  exact ⟨_, .mk w t σ hi hg⟩

/-- Without new calls, every execution is finite. -/
theorem work_acc {E : Env} {w : World} (hr : Reachable E w) : Acc (fun a b => Work E b a) w := by
  obtain ⟨N, hN⟩ := finite_threads hr
  clear hr
  have wf : WellFounded (fun (f g : Fin N → ℕ ×ₗ ℕ) => f < g) := wellFounded_lt
  generalize hf : (fun t : Fin N => (w.pc t).left) = f
  induction f using wf.induction generalizing w with
  | h f ih =>
    refine ⟨_, fun w' hw => ?_⟩
    obtain ⟨t, hi, -, h⟩ := work_cases hw
    have ht : t < N := by
      by_contra hge
      exact active_ne hi (hN t (by omega))
    have hpc : ∃ p, w'.pc = upd w.pc t p ∧ p.left < (w.pc t).left := by
      rcases h with ⟨_, _, p, -, rfl, hp⟩ | ⟨_, _, _, -, rfl⟩ | ⟨_, -, rfl⟩ | ⟨_, -, rfl⟩
      · exact ⟨p, rfl, hp⟩
      · exact ⟨.idle, rfl, left_pos hi⟩
      · exact ⟨.idle, rfl, left_pos hi⟩
      · exact ⟨.loops _, rfl, left_pos hi⟩
    obtain ⟨p, hp, hl⟩ := hpc
    refine ih _ ?_ ?_ rfl
    · subst hf
      rw [Pi.lt_def]
      refine ⟨fun u => ?_, ⟨t, ht⟩, ?_⟩
      · dsimp only
        by_cases e : (u : Nat) = t
        · rw [hp, e, upd_self]; exact hl.le
        · rw [hp, upd_other e]
      · dsimp only
        rw [hp, upd_self]; exact hl
    · intro u hu
      rw [hp, upd_other (by omega)]
      exact hN u hu

/-! ## Locks exclude each other -/

/-- A thread has after a step only what it had and what it asked for. -/
theorem out_holds {E : Env} {σ : Orders} {s s' : TokenStore} {p p' : Pc} {n : Next} (h : Out E σ s p s' n) (hn : n = .go p')
    {x : Lock × Mode} (hx : x ∈ p'.holds E) : x ∈ p.holds E ∨ p.wants E = some x := by
  have none : ∀ {p : Pc}, ((∃ x k', p = .add x k') ∨ (∃ c l, p = .scanSlot c l) ∨ (∃ pk, p = .finMultisig pk) ∨
      (∃ l out, p = .convert l out .one) ∨ ∃ l out, p = .convert l out .overlay) → x ∉ p.holds E := by
    rintro p (⟨_, _, rfl⟩ | ⟨_, _, rfl⟩ | ⟨_, rfl⟩ | ⟨_, _, rfl⟩ | ⟨_, _, rfl⟩) <;> simp [Pc.holds, Job.holds]
  have scan : ∀ {r : Answers} {j : Scan} {n : Next}, j.next r = .ok n → n = .go p' → False := by
    intro r j n h hn
    subst hn
    cases j with
    | one pk =>
      simp only [Scan.next, Run.bind_eq_ok] at h
      obtain ⟨o, -, h⟩ := h
      split at h <;> simp only [Run.pure_eq, Run.ok.injEq, Next.go.injEq] at h
      · exact none (.inr (.inr (.inr (.inl ⟨_, _, h.symm⟩)))) hx
      · exact none (.inr (.inr (.inl ⟨_, h.symm⟩))) hx
    | overlay l =>
      simp only [Scan.next, Run.ok.injEq, Next.go.injEq] at h
      exact none (.inr (.inr (.inr (.inr ⟨_, _, h.symm⟩)))) hx
  cases h
  case scanConfirmed hj => exact (scan hj hn).elim
  case scanDone hj => exact (scan hj hn).elim
  case rescan hj => exact (scan hj hn).elim
  case convertEnd =>
    rcases job_next hn with h | h
    · exact absurd hx (none (.inl h))
    · exact absurd hx (none (.inr (.inl h)))
  all_goals
    first
    | (cases hn <;> simp only [Pc.holds, Job.holds, List.not_mem_nil] at hx <;> done)
    | (cases hn <;> simp only [Pc.holds, Job.holds, List.mem_cons, List.not_mem_nil, or_false] at hx ⊢ <;>
        first | (subst hx; exact .inr rfl) | exact .inl hx | (rcases hx with rfl | rfl <;> simp [Pc.wants]))
    | (exact absurd hx (none (.inl (after_next hn))))

/-- Two threads have a lock at the same time only for reading. -/
theorem exclusive {E : Env} {w : World} (hr : Reachable E w) (t t' : Nat) (l : Lock) (m m' : Mode) (hne : t ≠ t')
    (h : (l, m) ∈ (w.pc t).holds E) (h' : (l, m') ∈ (w.pc t').holds E) : m = .read ∧ m' = .read := by
  induction hr generalizing t t' l m m' with
  | refl => simp [World.init, Pc.holds] at h
  | @tail w w' _ hs ih =>
    -- the step gives thread `x` at most what it wants
    have put : ∀ x p, w.Granted E x → (∀ y ∈ p.holds E, y ∈ (w.pc x).holds E ∨ (w.pc x).wants E = some y) → w'.pc = upd w.pc x p →
        m = .read ∧ m' = .read := by
      intro x p hg hp hpc
      rw [hpc] at h h'
      by_cases e : t = x
      · subst e
        rw [upd_self] at h
        rw [upd_other (Ne.symm hne)] at h'
        rcases hp _ h with h | h
        · exact ih t t' l m m' hne h h'
        · exact (hg l m h).1 t' m' h'
      · rw [upd_other e] at h
        by_cases e' : t' = x
        · subst e'
          rw [upd_self] at h'
          rcases hp _ h' with h' | h'
          · exact ih t t' l m m' hne h h'
          · exact ((hg l m' h').1 t m h).symm
        · rw [upd_other e'] at h'
          exact ih t t' l m m' hne h h'
    cases hs with
    | work hw =>
      obtain ⟨x, hi, hg, ⟨_, _, p, ho, rfl, -⟩ | ⟨_, _, _, -, rfl⟩ | ⟨_, -, rfl⟩ | ⟨_, -, rfl⟩⟩ := work_cases hw
      · exact put x p hg (fun y hy => out_holds ho rfl hy) rfl
      · exact put x .idle hg (fun y hy => by simp [Pc.holds] at hy) rfl
      · exact put x .idle hg (fun y hy => by simp [Pc.holds] at hy) rfl
      · exact put x (.loops _) hg (fun y hy => by simpa [Pc.holds, eq_comm] using hy) rfl
    | call x k hi =>
      have hk : (Call.start k).holds E = [] := by
        cases k with
        | get pk c => simp only [Call.start]; split <;> rfl
        | _ => rfl
      have key : ∀ u l m, (l, m) ∈ (upd w.pc x (Call.start k) u).holds E → (l, m) ∈ (w.pc u).holds E := by
        intro u l m hu
        by_cases e : u = x
        · subst e; rw [upd_self, hk] at hu; simp at hu
        · rw [upd_other e] at hu; exact hu
      exact ih t t' l m m' hne (key t l m h) (key t' l m' h')

/-! ## Calls and replies -/

theorem lastCall_snoc {log : List (Nat × Event)} {t x : Nat} {k : Call} {v : Event} :
    LastCall (log ++ [(x, v)]) t k ↔ (x = t ∧ v = .call k) ∨ (x ≠ t ∧ LastCall log t k) := by
  constructor
  · rintro ⟨pre, mid, h, hm⟩
    rcases List.eq_nil_or_concat mid with rfl | ⟨mid', e, rfl⟩
    · have := List.append_inj_right' h rfl
      simp only [List.cons.injEq, Prod.mk.injEq, and_true] at this
      exact .inl this
    · simp only [List.concat_eq_append] at h hm
      rw [← List.cons_append, ← List.append_assoc] at h
      have h2 := List.append_inj_right' h rfl
      have h1 := List.append_inj_left' h rfl
      simp only [List.cons.injEq, and_true] at h2
      refine .inr ⟨?_, pre, mid', h1, fun e he => hm e (by simp [he])⟩
      have := hm e (by simp)
      rw [← h2] at this
      exact this
  · rintro (⟨rfl, rfl⟩ | ⟨hne, pre, mid, rfl, hm⟩)
    · exact ⟨log, [], by simp, by simp⟩
    · refine ⟨pre, mid ++ [(x, v)], by simp, fun e he => ?_⟩
      rcases List.mem_append.1 he with he | he
      · exact hm e he
      · simp only [List.mem_singleton] at he; subst he; exact hne

theorem lastCall_unique {log : List (Nat × Event)} {t : Nat} {k k' : Call} (h : LastCall log t k) (h' : LastCall log t k') : k = k' := by
  induction log using List.reverseRecOn with
  | nil => obtain ⟨pre, mid, e, -⟩ := h; simp at e
  | append_singleton log e ih =>
    obtain ⟨x, v⟩ := e
    rcases lastCall_snoc.1 h with ⟨e1, e2⟩ | ⟨e1, e2⟩ <;> rcases lastCall_snoc.1 h' with ⟨e3, e4⟩ | ⟨e3, e4⟩
    · rw [e2] at e4; cases e4; rfl
    · exact absurd e1 e3
    · exact absurd e3 e1
    · exact ih e2 e4

/-- A thread is in a call exactly if its last call has not returned. -/
theorem busy_iff {E : Env} {w : World} (hr : Reachable E w) (t : Nat) : w.pc t ≠ .idle ↔ ∃ k, LastCall w.log t k := by
  induction hr with
  | refl => simp [World.init, LastCall]
  | @tail w w' _ hs ih =>
    cases hs with
    | work hw =>
      obtain ⟨x, hi, -, ⟨_, _, p, ho, rfl, -⟩ | ⟨_, _, _, -, rfl⟩ | ⟨_, -, rfl⟩ | ⟨_, -, rfl⟩⟩ := work_cases hw
      · by_cases e : t = x
        · subst e
          simp only [upd_self]
          rw [← ih]
          exact ⟨fun _ => active_ne hi, fun _ hp => out_idle (hp ▸ ho)⟩
        · simp only [upd_other e]; exact ih
      · by_cases e : t = x
        · subst e; simp [lastCall_snoc]
        · simp only [upd_other e, lastCall_snoc, reduceCtorEq, and_false, false_or]
          simp only [ne_eq, Ne.symm e, not_false_eq_true, true_and]; exact ih
      · by_cases e : t = x
        · subst e; simp [lastCall_snoc]
        · simp only [upd_other e, lastCall_snoc, reduceCtorEq, and_false, false_or]
          simp only [ne_eq, Ne.symm e, not_false_eq_true, true_and]; exact ih
      · by_cases e : t = x
        · subst e
          simp only [upd_self]
          rw [← ih]
          exact ⟨fun _ => active_ne hi, fun _ => by simp⟩
        · simp only [upd_other e]; exact ih
    | call x k hi =>
      by_cases e : t = x
      · subst e
        simp only [upd_self]
        refine ⟨fun _ => ⟨k, lastCall_snoc.2 (.inl ⟨rfl, rfl⟩)⟩, fun _ => ?_⟩
        cases k with
        | get pk c => simp only [Call.start]; split <;> simp
        | _ => simp [Call.start]
      · simp only [upd_other e, lastCall_snoc, Ne.symm e, false_and, false_or, ne_eq, not_false_eq_true, true_and]; exact ih

theorem quiet_iff {E : Env} {w : World} (hr : Reachable E w) : Quiet w ↔ ∀ t, w.pc t = .idle := by
  constructor
  · intro h t
    by_contra hi
    obtain ⟨k, hk⟩ := (busy_iff hr t).1 hi
    exact h t k hk
  · intro h t k hk
    exact (busy_iff hr t).2 ⟨k, hk⟩ (h t)

/-- A thread in an endless loop stays there. -/
theorem loops_forever {E : Env} {w w' : World} (h : Steps E w w') {t : Nat} {l : List (Lock × Mode)} (ht : w.pc t = .loops l) :
    w'.pc t = .loops l := by
  induction h with
  | refl => exact ht
  | @tail w1 w2 _ hs ih =>
    have put : ∀ x p, w1.pc x ≠ .loops l → upd w1.pc x p t = .loops l := fun x p hx => by
      rw [upd_other (by rintro rfl; exact hx ih)]; exact ih
    cases hs with
    | work hw =>
      obtain ⟨x, hi, -, h⟩ := work_cases hw
      have hx : w1.pc x ≠ .loops l := by intro h; rw [h] at hi; exact hi
      obtain ⟨_, _, _, -, rfl, -⟩ | ⟨_, _, _, -, rfl⟩ | ⟨_, -, rfl⟩ | ⟨_, -, rfl⟩ := h <;> exact put x _ hx
    | call x k hi => exact put x _ (by rw [hi]; simp)

/-- A thread that asks to write under a lock that a thread in an endless loop has waits forever. -/
theorem blocked_forever {E : Env} {w w' : World} (h : Steps E w w') {t u : Nat} {l : List (Lock × Mode)} (ht : w.pc t = .loops l)
    {x : Lock} {m : Mode} (hx : (x, m) ∈ l) (hu : (w.pc u).wants E = some (x, .write)) : w'.pc u = w.pc u := by
  induction h with
  | refl => rfl
  | @tail w1 w2 h1 hs ih =>
    have ht1 := loops_forever h1 ht
    have put : ∀ y p, (∀ z m, (w1.pc y).wants E ≠ some (z, m)) ∨ w1.Granted E y → upd w1.pc y p u = w.pc u := by
      intro y p hy
      rw [upd_other, ih]
      rintro rfl
      rcases hy with hy | hy
      · rw [ih] at hy; exact hy _ _ hu
      · have := (hy x .write (by rw [ih]; exact hu)).1 t m (by rw [ht1]; exact hx)
        simp at this
    cases hs with
    | work hw =>
      obtain ⟨y, hi, hg, h⟩ := work_cases hw
      obtain ⟨_, _, _, -, rfl, -⟩ | ⟨_, _, _, -, rfl⟩ | ⟨_, -, rfl⟩ | ⟨_, -, rfl⟩ := h <;> exact put y _ (.inr hg)
    | call y k hi => exact put y _ (.inl fun z m => by rw [hi]; simp [Pc.wants])

/-! ## A scheduler to build concrete executions -/

/-- One decision of the scheduler. -/
inductive Move where
  | call (t : Nat) (k : Call)
  | go (t : Nat)

/-- Whether thread `t` gets its lock, if only the first `n` threads are in calls. -/
def canGo (E : Env) (n : Nat) (w : World) (t : Nat) : Bool :=
  match (w.pc t).wants E with
  | none => true
  | some (l, m) =>
    ((List.range n).all fun u => ((w.pc u).holds E).all fun x => x.1 != l || (m == .read && x.2 == .read)) &&
    (m != .read || !E.writersFirst || (List.range n).all fun u => (w.pc u).wants E != some (l, .write))

/-- Only the first `n` threads are in calls. -/
def Within (n : Nat) (w : World) : Prop := ∀ t, n ≤ t → w.pc t = .idle

theorem canGo_granted {E : Env} {n : Nat} {w : World} {t : Nat} (hw : Within n w) (h : canGo E n w t = true) : w.Granted E t := by
  intro l m hm
  simp only [canGo, hm, Bool.and_eq_true, List.all_eq_true, List.mem_range, Bool.or_eq_true, bne_iff_ne, beq_iff_eq] at h
  have lt : ∀ u, w.pc u ≠ .idle → u < n := fun u hu => by
    by_contra hge
    exact hu (hw u (by omega))
  refine ⟨fun u m' hu => ?_, fun hr hf u hu => ?_⟩
  · have hui : w.pc u ≠ .idle := by intro h; rw [h] at hu; simp [Pc.holds] at hu
    have := h.1 u (lt u hui) _ hu
    simpa using this
  · have hui : w.pc u ≠ .idle := by intro h; rw [h] at hu; simp [Pc.wants] at hu
    rcases h.2 with (h2 | h2) | h2
    · exact h2 hr
    · simp [hf] at h2
    · exact h2 u (lt u hui) hu

/-- In a call, and not in an endless loop. -/
def isActive : Pc → Bool
  | .idle | .loops _ => false
  | _ => true

theorem isActive_iff {p : Pc} : isActive p = true ↔ p.active := by cases p <;> simp [isActive, Pc.active]

/-- Not in a call. -/
def isIdle : Pc → Bool
  | .idle => true
  | _ => false

theorem isIdle_iff {p : Pc} : isIdle p = true ↔ p = .idle := by cases p <;> simp [isIdle]

/-- One decision carried out. -/
def move (E : Env) (n : Nat) (σ : Orders) (w : World) : Move → Option World
  | .call t k => if t < n && isIdle (w.pc t) then
      some { w with pc := upd w.pc t (Call.start k), log := w.log ++ [(t, .call k)] } else none
  | .go t => if t < n && isActive (w.pc t) && canGo E n w t then some (w.after E t ((w.pc t).exec E σ w.st)) else none

/-- A schedule carried out. -/
def schedule (E : Env) (n : Nat) (σ : Orders) (w : World) : List Move → Option World
  | [] => some w
  | m :: ms => match move E n σ w m with
    | some w' => schedule E n σ w' ms
    | none => none

theorem after_pc (E : Env) (w : World) (t : Nat) (r : Run (TokenStore × Next)) : ∃ p, (w.after E t r).pc = upd w.pc t p := by
  match r with
  | .ok (s, .go p) => exact ⟨p, rfl⟩
  | .ok (s, .ret r) => exact ⟨.idle, rfl⟩
  | .panic => exact ⟨.idle, rfl⟩
  | .diverge => exact ⟨.loops _, rfl⟩

theorem move_sound {E : Env} {n : Nat} {σ : Orders} {w w' : World} {m : Move} (hw : Within n w) (h : move E n σ w m = some w') :
    Step E w w' ∧ Within n w' := by
  cases m with
  | call t k =>
    simp only [move] at h
    split at h
    · rename_i hc
      simp only [Bool.and_eq_true, decide_eq_true_eq, isIdle_iff] at hc
      cases h
      refine ⟨.call w t k hc.2, fun x hx => ?_⟩
      simp only; rw [upd_other (by omega)]; exact hw x hx
    · cases h
  | go t =>
    simp only [move] at h
    split at h
    · rename_i hc
      simp only [Bool.and_eq_true, decide_eq_true_eq, isActive_iff] at hc
      cases h
      refine ⟨.work (.mk w t σ hc.1.2 (canGo_granted hw hc.2)), fun x hx => ?_⟩
      obtain ⟨p, hp⟩ := after_pc E w t ((w.pc t).exec E σ w.st)
      rw [hp, upd_other (by omega)]; exact hw x hx
    · cases h

theorem Steps.head {E : Env} {w w' w'' : World} (h : Step E w w') (h' : Steps E w' w'') : Steps E w w'' :=
  (Steps.tail (.refl _) h).trans h'

theorem schedule_sound {E : Env} {n : Nat} {σ : Orders} {ms : List Move} : ∀ {w w' : World}, Within n w →
    schedule E n σ w ms = some w' → Steps E w w' ∧ Within n w' := by
  induction ms with
  | nil => intro w w' hw h; cases h; exact ⟨.refl _, hw⟩
  | cons m ms ih =>
    intro w w' hw h
    simp only [schedule] at h
    split at h
    · rename_i w1 h1
      obtain ⟨hs, hw1⟩ := move_sound hw h1
      obtain ⟨h2, h3⟩ := ih hw1 h
      exact ⟨.head hs h2, h3⟩
    · cases h

/-- Where a schedule of a new store leads. -/
def played (E : Env) (n : Nat) (σ : Orders) (ms : List Move) : World := (schedule E n σ World.init ms).getD World.init

theorem played_reachable (E : Env) (n : Nat) (σ : Orders) (ms : List Move) : Reachable E (played E n σ ms) := by
  unfold played
  cases h : schedule E n σ World.init ms with
  | none => exact .refl _
  | some w => exact (schedule_sound (fun _ _ => rfl) h).1

end LAM.TokConc
