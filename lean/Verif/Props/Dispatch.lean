import Verif.Model.Dispatch
import Verif.Props.StoreReads
/-!
# The program dispatcher: C35 – C37
-/
namespace LAM.Props
open Dispatch

variable {σ : Type}

/-- Exactly storage `i` was called, once, with `k`; it answered `r`, and no other storage changed. -/
structure OnlyCalled (B : Behaviour σ) (i : Nat) (k : Call) (w w' : World σ) (r : k.Reply) : Prop where
  log : w'.log = w.log ++ [⟨i, k, r⟩]
  answer : B.call i (w.state i) k = (w'.state i, r)
  others : ∀ j, j ≠ i → w'.state j = w.state j

/-- Storage `i` is responsible for program `p`: it is registered for it, or it is the default one and none
is registered. -/
def Responsible (d : Table) (p : Pubkey) (i : Nat) : Prop :=
  (p, i) ∈ d.map ∨ (∀ j, (p, j) ∉ d.map) ∧ i = d.default

/-- A hash map has each key once. -/
def Table.Distinct (d : Table) : Prop := (d.map.map Prod.fst).Nodup

private theorem ask_onlyCalled (B : Behaviour σ) (i : Nat) (k : Call) (w : World σ) :
    OnlyCalled B i k w (ask B i k w).1 (ask B i k w).2 := by
  refine ⟨rfl, ?_, ?_⟩
  · simp [ask]
  · intro j hj; simp [ask, hj]

private theorem find_of_mem {l : List (Pubkey × Nat)} (hn : (l.map Prod.fst).Nodup) {p : Pubkey} {i : Nat}
    (h : (p, i) ∈ l) : l.find? (fun e => e.1 == p) = some (p, i) := by
  induction l with
  | nil => simp at h
  | cons e l ih =>
    simp only [List.map_cons, List.nodup_cons] at hn
    rcases List.mem_cons.1 h with rfl | h
    · simp
    · have : (e.1 == p) = false := by
        simp only [beq_eq_false_iff_ne]
        rintro rfl
        exact hn.1 (List.mem_map.2 ⟨_, h, rfl⟩)
      simp [this, ih hn.2 h]

private theorem find_responsible {d : Table} (hd : Table.Distinct d) {p : Pubkey} {i : Nat} (h : Responsible d p i) :
    d.find p = some i ∨ (d.find p = none ∧ i = d.default) := by
  rcases h with h | ⟨h, rfl⟩
  · exact Or.inl (by simp [Table.find, find_of_mem hd h])
  · refine Or.inr ⟨?_, rfl⟩
    simp only [Table.find, Option.map_eq_none_iff, List.find?_eq_none, beq_iff_eq]
    rintro ⟨q, j⟩ hm rfl
    exact h j hm

/-! ## C35 -/

/-- **C35**. Program-keyed calls go to the storage responsible for the program, and only to it. -/
theorem C35_routed_to_responsible (B : Behaviour σ) (d : Table) (hd : Table.Distinct d) (w : World σ)
    (p : Pubkey) (i : Nat) (hi : Responsible d p i) :
    (∀ fs c, OnlyCalled B i (.gpa p fs c) w (getProgramAccounts B d p fs c w).1 (getProgramAccounts B d p fs c w).2) ∧
    OnlyCalled B i (.createSnapshot p) w (createSnapshot B d p w).1 (createSnapshot B d p w).2 ∧
    (∀ bs, OnlyCalled B i (.load p bs) w (load B d p bs w).1 (load B d p bs w).2) ∧
    ∀ a : AccountData, a.account.owner = p →
      OnlyCalled B i (.init a) w (init B d a w).1 (init B d a w).2 := by
  rcases find_responsible hd hi with h | ⟨h, rfl⟩
  · refine ⟨fun fs c => ?_, ?_, fun bs => ?_, fun a ha => ?_⟩
    · simpa only [getProgramAccounts, h] using ask_onlyCalled B i (.gpa p fs c) w
    · simpa only [createSnapshot, h] using ask_onlyCalled B i (.createSnapshot p) w
    · simpa only [load, h] using ask_onlyCalled B i (.load p bs) w
    · simpa only [init, ha, h] using ask_onlyCalled B i (.init a) w
  · refine ⟨fun fs c => ?_, ?_, fun bs => ?_, fun a ha => ?_⟩
    · simpa only [getProgramAccounts, h] using ask_onlyCalled B d.default (.gpa p fs c) w
    · simpa only [createSnapshot, h] using ask_onlyCalled B d.default (.createSnapshot p) w
    · simpa only [load, h] using ask_onlyCalled B d.default (.load p bs) w
    · simpa only [init, ha, h] using ask_onlyCalled B d.default (.init a) w

/-- Some storage is responsible for every program. -/
theorem C35_someone_responsible (d : Table) (p : Pubkey) : ∃ i, Responsible d p i := by
  by_cases h : ∃ i, (p, i) ∈ d.map
  · obtain ⟨i, hi⟩ := h; exact ⟨i, Or.inl hi⟩
  · exact ⟨d.default, Or.inr ⟨fun j hj => h ⟨j, hj⟩, rfl⟩⟩

/-- A table with two registered programs. -/
def twoPrograms : Table := ⟨[(Toy.prog, 1), (Toy.prog2, 2)], 0⟩

example : Table.Distinct twoPrograms ∧ Responsible twoPrograms Toy.prog2 2 ∧ Responsible twoPrograms Toy.alice 0 := by
  refine ⟨by unfold Table.Distinct; decide, Or.inl (by decide), Or.inr ⟨?_, rfl⟩⟩
  intro j hj
  simp only [twoPrograms, List.mem_cons, Prod.mk.injEq, List.not_mem_nil, or_false] at hj
  rcases hj with ⟨h, -⟩ | ⟨h, -⟩ <;> revert h <;> decide

/-! ## C36 -/

/-- The storages of the table, in the order in which they are asked. -/
def Table.storages (d : Table) : List Nat := d.map.map Prod.snd ++ [d.default]

/-- Reading does not change the sub-storages. -/
def PureReads (B : Behaviour σ) : Prop := ∀ i x pk c, (B.call i x (.getAccount pk c)).1 = x

/-- The full claim of **C36**. -/
def C36_statement : Prop :=
  ∀ (σ : Type) (B : Behaviour σ), PureReads B → ∀ (d : Table), Table.Distinct d → ∀ (w : World σ) (pk : Pubkey)
    (c : Commitment) (i : Nat) (a : AccountData), i ∈ Table.storages d →
    (B.call i (w.state i) (.getAccount pk c)).2 = .ok (some a) →
    ∃ b, (getAccount B d pk c w).2 = .ok (some b)

/-- In-memory stores as sub-storages (only reads matter here). -/
def storeBehaviour : Behaviour Store where
  call _ s k := match k with
    | .update .. => (s, false)
    | .init .. => (s, ())
    | .getAccount pk c => (s, match s.getAccount pk c with | .ok r => .ok r | _ => .error .accountNotFound)
    | .gpa .. => (s, .ok [])
    | .process .. => (s, [])
    | .createSnapshot .. => (s, .ok [])
    | .load .. => (s, .ok ())

/-- **C36** is false: an in-memory store registered for a program answers "no such account" for accounts held by
the default store, and the dispatcher takes that for the answer. -/
theorem C36_found_anywhere_refuted : ¬ C36_statement := by
  intro h
  have hs : ∃ s, Store.empty.run [.update allowAll (Toy.acct Toy.alice Toy.prog 1 5 1) .processed] = .ok s ∧
      s.getAccount Toy.alice .processed = .ok (some (Toy.acct Toy.alice Toy.prog 1 5 1)) := ⟨_, rfl, by decide⟩
  obtain ⟨s, -, hg⟩ := hs
  obtain ⟨b, hb⟩ := h Store storeBehaviour (by intro i x pk c; rfl) ⟨[(Toy.prog2, 1)], 0⟩ (by simp [Table.Distinct])
    ⟨fun i => if i = 0 then s else Store.empty, []⟩ Toy.alice .processed 0 (Toy.acct Toy.alice Toy.prog 1 5 1)
    (by simp [Table.storages]) (by simp [storeBehaviour, hg])
  simp [getAccount, getLoop, ask, storeBehaviour, Store.getAccount, Store.empty] at hb

private theorem getLoop_pure {B : Behaviour σ} (hp : PureReads B) (pk : Pubkey) (c : Commitment) (dflt : Nat)
    (es : List (Pubkey × Nat)) (w : World σ) :
    ∃ pre i post, es.map Prod.snd ++ [dflt] = pre ++ i :: post ∧
      (getLoop B pk c dflt es w).1.state = w.state ∧
      (getLoop B pk c dflt es w).2 = (B.call i (w.state i) (.getAccount pk c)).2 ∧
      (∀ j ∈ pre, ∃ e, (B.call j (w.state j) (.getAccount pk c)).2 = .error e) ∧
      ((∃ r, (B.call i (w.state i) (.getAccount pk c)).2 = .ok r) ∨ post = []) := by
  have hst : ∀ i (w : World σ), (ask B i (.getAccount pk c) w).1.state = w.state := by
    intro i w
    funext j
    simp only [ask]
    split
    · rename_i h; rw [hp, h]
    · rfl
  induction es generalizing w with
  | nil => exact ⟨[], dflt, [], by simp, hst _ _, rfl, by simp, Or.inr rfl⟩
  | cons e es ih =>
    cases hr : (B.call e.2 (w.state e.2) (.getAccount pk c)).2 with
    | ok r =>
      have he : ask B e.2 (.getAccount pk c) w = ((ask B e.2 (.getAccount pk c) w).1, .ok r) :=
        Prod.ext rfl hr
      refine ⟨[], e.2, es.map Prod.snd ++ [dflt], by simp, ?_, ?_, by simp, Or.inl ⟨r, hr⟩⟩
      · rw [getLoop, he]; exact hst _ _
      · rw [getLoop, he]; exact hr.symm
    | error x =>
      have he : ask B e.2 (.getAccount pk c) w = ((ask B e.2 (.getAccount pk c) w).1, .error x) :=
        Prod.ext rfl hr
      obtain ⟨pre, i, post, h1, h2, h3, h4, h5⟩ := ih (ask B e.2 (.getAccount pk c) w).1
      simp only [hst] at h2 h3 h4 h5
      have hg : getLoop B pk c dflt (e :: es) w = getLoop B pk c dflt es (ask B e.2 (.getAccount pk c) w).1 := by
        rw [getLoop, he]
      refine ⟨e.2 :: pre, i, post, by simp [h1], by rw [hg]; exact h2, by rw [hg]; exact h3, ?_, h5⟩
      intro j hj
      rcases List.mem_cons.1 hj with rfl | hj
      · exact ⟨x, hr⟩
      · exact h4 j hj

/-- **C36 (partial)**. If the storages that do not have the account answer with an error, the account is
found.  Missing: storages that answer `Ok(None)`, such as the in-memory store (false). -/
theorem C36_found_anywhere_partial (B : Behaviour σ) (hp : PureReads B) (d : Table) (w : World σ)
    (pk : Pubkey) (c : Commitment) (i : Nat) (a : AccountData) (hi : i ∈ Table.storages d)
    (ha : (B.call i (w.state i) (.getAccount pk c)).2 = .ok (some a))
    (hmiss : ∀ j ∈ Table.storages d, (B.call j (w.state j) (.getAccount pk c)).2 ≠ .ok none) :
    ∃ j b, j ∈ Table.storages d ∧ (B.call j (w.state j) (.getAccount pk c)).2 = .ok (some b) ∧
      (getAccount B d pk c w).2 = .ok (some b) := by
  obtain ⟨pre, j, post, h1, -, h3, h4, h5⟩ := getLoop_pure hp pk c d.default d.map w
  have hj : j ∈ Table.storages d := by simp only [Table.storages, h1]; simp
  have hok : ∃ r, (B.call j (w.state j) (.getAccount pk c)).2 = .ok r := by
    rcases h5 with h5 | rfl
    · exact h5
    · simp only [Table.storages, h1, List.mem_append, List.mem_singleton] at hi
      rcases hi with hi | rfl
      · obtain ⟨e, he⟩ := h4 i hi
        rw [he] at ha; cases ha
      · exact ⟨_, ha⟩
  obtain ⟨r, hr⟩ := hok
  cases r with
  | none => exact absurd hr (hmiss j hj)
  | some b => exact ⟨j, b, hj, hr, by rw [getAccount, h3, hr]⟩

/-- **C36**. In general the first storage with a successful answer decides. -/
theorem C36_first_success_decides (B : Behaviour σ) (hp : PureReads B) (d : Table) (w : World σ) (pk : Pubkey)
    (c : Commitment) : ∃ pre i post, Table.storages d = pre ++ i :: post ∧
      (getAccount B d pk c w).2 = (B.call i (w.state i) (.getAccount pk c)).2 ∧
      (∀ j ∈ pre, ∃ e, (B.call j (w.state j) (.getAccount pk c)).2 = .error e) ∧
      ((∃ r, (B.call i (w.state i) (.getAccount pk c)).2 = .ok r) ∨ post = []) := by
  obtain ⟨pre, i, post, h1, -, h3, h4, h5⟩ := getLoop_pure hp pk c d.default d.map w
  exact ⟨pre, i, post, h1, h3, h4, h5⟩

/-- Storage 1 has the account, the others answer with an error. -/
def oneHas : Behaviour Unit where
  call i s k := match k with
    | .update .. => (s, i == 1)
    | .init .. => (s, ())
    | .getAccount .. => (s, if i = 1 then .ok (some (Toy.acct Toy.alice Toy.prog 1 5 1)) else .error .accountNotFound)
    | .gpa .. => (s, .ok [])
    | .process .. => (s, [])
    | .createSnapshot .. => (s, .ok [])
    | .load .. => (s, .ok ())

example : PureReads oneHas ∧
    (∀ j ∈ Table.storages twoPrograms, (oneHas.call j () (.getAccount Toy.alice .processed)).2 ≠ .ok none) ∧
    (getAccount oneHas twoPrograms Toy.alice .processed ⟨fun _ => (), []⟩).2 =
      .ok (some (Toy.acct Toy.alice Toy.prog 1 5 1)) := by
  refine ⟨fun _ _ _ _ => rfl, ?_, rfl⟩
  intro j hj
  simp only [oneHas]
  split <;> simp

/-! ## C37 -/

/-- **C37** (updates). The update is offered to the storages in order up to the first one that accepts;
the result is the answer of the last one asked, and `false` only if all were asked. -/
theorem C37_update_offered_in_order (B : Behaviour σ) (d : Table) (a : AccountData) (c : Commitment) (w : World σ) :
    ∃ asked last rest, Table.storages d = asked ++ last :: rest ∧
      (update B d a c w).1.log = w.log ++ asked.map (fun i => ⟨i, .update a c, false⟩) ++
        [⟨last, .update a c, (update B d a c w).2⟩] ∧
      ((update B d a c w).2 = false → rest = []) := by
  suffices h : ∀ es : List (Pubkey × Nat), ∀ w : World σ, ∃ asked last rest,
      es.map Prod.snd ++ [d.default] = asked ++ last :: rest ∧
      (updateLoop B a c d.default es w).1.log = w.log ++ asked.map (fun i => ⟨i, .update a c, false⟩) ++
        [⟨last, .update a c, (updateLoop B a c d.default es w).2⟩] ∧
      ((updateLoop B a c d.default es w).2 = false → rest = []) from h d.map w
  intro es
  induction es with
  | nil => intro w; exact ⟨[], d.default, [], by simp, by simp [updateLoop, ask], by simp⟩
  | cons e es ih =>
    intro w
    have hd : updateLoop B a c d.default (e :: es) w = if (ask B e.2 (.update a c) w).2 = true
      then ((ask B e.2 (.update a c) w).1, true) else updateLoop B a c d.default es (ask B e.2 (.update a c) w).1 := rfl
    by_cases hr : (ask B e.2 (.update a c) w).2 = true
    · rw [if_pos hr] at hd
      refine ⟨[], e.2, es.map Prod.snd ++ [d.default], by simp, ?_, ?_⟩
      · rw [hd]; simp only [List.map_nil, List.append_nil]; rw [← hr]; rfl
      · rw [hd]; intro hc; cases hc
    · rw [if_neg hr] at hd
      obtain ⟨asked, last, rest, h1, h2, h3⟩ := ih (ask B e.2 (.update a c) w).1
      refine ⟨e.2 :: asked, last, rest, by simp [h1], ?_, by rw [hd]; exact h3⟩
      rw [hd, h2]
      have hf : (ask B e.2 (.update a c) w).2 = false := by simpa using hr
      have hl : (ask B e.2 (.update a c) w).1.log = w.log ++ [⟨e.2, .update a c, false⟩] := by rw [← hf]; rfl
      simp [hl]

/-- **C37** (updates). `true` means exactly that some storage accepted the update. -/
theorem C37_update_true_iff_accepted (B : Behaviour σ) (d : Table) (a : AccountData) (c : Commitment) (w : World σ) :
    ∃ new, (update B d a c w).1.log = w.log ++ new ∧
      ((update B d a c w).2 = true ↔ ∃ i, (⟨i, .update a c, true⟩ : Entry) ∈ new) := by
  obtain ⟨asked, last, rest, -, h2, -⟩ := C37_update_offered_in_order B d a c w
  refine ⟨asked.map (fun i => ⟨i, .update a c, false⟩) ++ [⟨last, .update a c, (update B d a c w).2⟩],
    by simp [h2], ?_⟩
  constructor
  · intro h; rw [h]; exact ⟨last, by simp⟩
  · rintro ⟨i, hi⟩
    rcases List.mem_append.1 hi with hi | hi
    · obtain ⟨j, -, hj⟩ := List.mem_map.1 hi
      simp at hj
    · simp at hi; exact hi.2

/-- **C37** (slot notifications). The notification is delivered to the storages of all table entries and to the
default one, in order, and the answers are concatenated. -/
theorem C37_slot_reaches_all (B : Behaviour σ) (d : Table) (info : SlotInfo) (c : Commitment) (w : World σ) :
    ∃ answers : List (List AccountData), answers.length = (Table.storages d).length ∧
      (process B d info c w).1.log = w.log ++
        (Table.storages d).zipWith (fun i r => ⟨i, .process info c, r⟩) answers ∧
      (process B d info c w).2 = answers.flatten := by
  suffices h : ∀ es : List (Pubkey × Nat), ∀ w : World σ, ∃ answers : List (List AccountData),
      answers.length = (es.map Prod.snd ++ [d.default]).length ∧
      (processLoop B info c d.default es w).1.log = w.log ++
        (es.map Prod.snd ++ [d.default]).zipWith (fun i r => ⟨i, .process info c, r⟩) answers ∧
      (processLoop B info c d.default es w).2 = answers.flatten from h d.map w
  intro es
  induction es with
  | nil =>
    intro w
    exact ⟨[(ask B d.default (.process info c) w).2], by simp, by simp [processLoop, ask], by simp [processLoop]⟩
  | cons e es ih =>
    intro w
    obtain ⟨as, h1, h2, h3⟩ := ih (ask B e.2 (.process info c) w).1
    refine ⟨(ask B e.2 (.process info c) w).2 :: as, by simp [h1], ?_, ?_⟩
    · simp only [processLoop, h2]; simp [ask]
    · simp [processLoop, h3]

/-- The full claim of **C37** about slot notifications: every storage gets it exactly once. -/
def C37_once_statement : Prop :=
  ∀ (σ : Type) (B : Behaviour σ) (d : Table), Table.Distinct d → ∀ (info : SlotInfo) (c : Commitment) (w : World σ),
    ∀ i ∈ Table.storages d, ∃ new, (process B d info c w).1.log = w.log ++ new ∧
      (new.filter (fun e => e.storage == i)).length = 1

/-- **C37** is false when one storage is registered for two programs (say both token programs): it is notified
twice. -/
theorem C37_slot_once_refuted : ¬ C37_once_statement := by
  intro h
  obtain ⟨new, h1, h2⟩ := h Unit oneHas ⟨[(Toy.prog, 1), (Toy.prog2, 1)], 0⟩ (by unfold Table.Distinct; decide)
    ⟨7, 6, 0⟩ .confirmed ⟨fun _ => (), []⟩ 1 (by simp [Table.storages])
  have : new = [⟨1, .process ⟨7, 6, 0⟩ .confirmed, []⟩, ⟨1, .process ⟨7, 6, 0⟩ .confirmed, []⟩,
      ⟨0, .process ⟨7, 6, 0⟩ .confirmed, []⟩] := by
    simpa [process, processLoop, ask, oneHas] using h1.symm
  rw [this] at h2
  simp at h2

/-- **C37 (partial)**. With a separate storage per program, every storage is notified exactly once.
Missing: a storage registered twice (false). -/
theorem C37_slot_once_partial (B : Behaviour σ) (d : Table) (hd : (Table.storages d).Nodup) (info : SlotInfo)
    (c : Commitment) (w : World σ) (i : Nat) (hi : i ∈ Table.storages d) :
    ∃ new, (process B d info c w).1.log = w.log ++ new ∧
      (new.filter (fun e => e.storage == i)).length = 1 ∧ ∀ e ∈ new, e.call = .process info c := by
  obtain ⟨answers, h1, h2, -⟩ := C37_slot_reaches_all B d info c w
  refine ⟨_, h2, ?_, ?_⟩
  · generalize Table.storages d = ids at hd hi h1
    clear h2
    induction ids generalizing answers with
    | nil => simp at hi
    | cons j ids ih =>
      cases answers with
      | nil => simp at h1
      | cons r rs =>
        simp only [List.nodup_cons] at hd
        simp only [List.zipWith_cons_cons, List.filter_cons]
        by_cases hji : j = i
        · subst hji
          have : (List.zipWith (fun i r => (⟨i, .process info c, r⟩ : Entry)) ids rs).filter
              (fun e => e.storage == j) = [] := by
            rw [List.filter_eq_nil_iff]
            intro e he hej
            simp only [beq_iff_eq] at hej
            obtain ⟨k, hk, hek⟩ := List.getElem_of_mem he
            rw [List.getElem_zipWith] at hek
            subst hek
            simp only at hej
            exact hd.1 (hej ▸ List.getElem_mem _)
          simp [this]
        · rcases List.mem_cons.1 hi with rfl | hi
          · exact absurd rfl hji
          · have hb : (j == i) = false := by simpa using hji
            simp only [hb, Bool.false_eq_true, if_false]
            exact ih rs hd.2 hi (by simpa using h1)
  · intro e he
    obtain ⟨k, hk, hek⟩ := List.getElem_of_mem he
    rw [List.getElem_zipWith] at hek
    subst hek; rfl

example : (Table.storages twoPrograms).Nodup ∧
    (update oneHas twoPrograms (Toy.acct Toy.alice Toy.prog 1 5 1) .processed ⟨fun _ => (), []⟩).2 = true := by
  constructor <;> decide

end LAM.Props
