import Verif.Spec.StoreListen
import Verif.Props.StoreChain
import Verif.Props.StoreSlots
/-!
# A listener to slot notifications knows what reads show: C130
-/
namespace LAM.Props
open Spec Store

/-- **C130**, the full claim: `h1` are the calls until `pk` is tracked, `h2` those until the listener reads its first value, and
`h3` those it listens to. -/
def C130_statement : Prop :=
  ∀ (par : Nat → Nat) (base : Nat) (pk : Pubkey) (c : Commitment) (h1 h2 h3 : List Op) (s1 s2 s3 : Store) (v v' : Heard),
    c ≠ .processed → empty.run h1 = .ok s1 → s1.containsKey pk = false → s1.run h2 = .ok s2 →
    StaysTracked s1 (h2 ++ h3) pk → OneChain par base (h1 ++ (h2 ++ h3)) → UpdatesInTime par base pk h1 (h2 ++ h3) →
    ParentsKnown par base (h1 ++ (h2 ++ h3)) → FinalizedBehind par base (h1 ++ (h2 ++ h3)) →
    s2.getAccount pk c = .ok (v pk) → listen c s2 v h3 = .ok (s3, v') → s3.getAccount pk c = .ok (v' pk)

private theorem learn_other : ∀ (r : List AccountData) (v : Heard) (pk : Pubkey), (∀ a ∈ r, a.pubkey ≠ pk) → learn v r pk = v pk := by
  intro r
  induction r with
  | nil => intros; rfl
  | cons a r ih =>
    intro v pk h
    rw [learn, ih _ _ (fun b hb => h b (by simp [hb])), if_neg]
    exact fun he => h a (by simp) he.symm

private theorem learn_mem : ∀ (r : List AccountData) (v : Heard) (a : AccountData), (r.map AccountData.pubkey).Nodup → a ∈ r →
    learn v r a.pubkey = shown a := by
  intro r
  induction r with
  | nil => intro v a _ h; simp at h
  | cons b r ih =>
    intro v a hnd h
    simp only [List.map_cons, List.nodup_cons, List.mem_map, not_exists, not_and] at hnd
    rcases List.mem_cons.1 h with rfl | h
    · rw [learn, learn_other _ _ _ (fun b hb he => hnd.1 b hb he), if_pos rfl]
    · rw [learn, ih _ _ hnd.2 h]

private theorem newestWhere_unique {P : AccountData → Prop} {L : List AccountData} {o o' : Option AccountData}
    (h : NewestWhere P L o) (h' : NewestWhere P L o') : o = o' := by
  cases o with
  | none =>
    cases o' with
    | none => rfl
    | some y => obtain ⟨h1, h2, -⟩ := newestWhere_mem h'; exact absurd h2 (h y h1)
  | some x =>
    cases o' with
    | none => obtain ⟨h1, h2, -⟩ := newestWhere_mem h; exact absurd h2 (h' x h1)
    | some y =>
      obtain ⟨l1, l2, e1, hx, b1, a1⟩ := h
      obtain ⟨m1, m2, e2, hy, b2, a2⟩ := h'
      rw [e1] at e2
      rcases List.append_eq_append_iff.1 e2 with ⟨t, h1, h2⟩ | ⟨t, h1, h2⟩
      · cases t with
        | nil => simp at h2; rw [h2.1]
        | cons z t =>
          simp only [List.cons_append, List.cons.injEq] at h2
          obtain ⟨rfl, h2⟩ := h2
          exact absurd (b2 x (by simp [h1]) hx) (a1 y (by simp [h2]) hy)
      · cases t with
        | nil => simp at h2; rw [h2.1]
        | cons z t =>
          simp only [List.cons_append, List.cons.injEq] at h2
          obtain ⟨rfl, h2⟩ := h2
          exact absurd (b1 y (by simp [h1]) hy) (a2 x (by simp [h2]) hx)

private theorem state_follows {par : Nat → Nat} {base : Nat} {pk : Pubkey} {h1 h2 : List Op} {s1 s2 : Store}
    (hr1 : empty.run h1 = .ok s1) (hun : s1.containsKey pk = false) (hr2 : s1.run h2 = .ok s2) (htr : StaysTracked s1 h2 pk)
    (H : OneChain par base (h1 ++ h2)) (hut : UpdatesInTime par base pk h1 h2)
    (hpk : ParentsKnown par base (h1 ++ h2)) (hfb : FinalizedBehind par base (h1 ++ h2)) {c : Commitment} (hc : c ≠ .processed) :
    NewestWhere (ChainVisible par base c (h1 ++ h2)) (submissions pk h2) (stateAt s2 pk c) := by
  by_cases hn : h2 = []
  · subst hn
    simp only [run, Run.ok.injEq] at hr2; subst hr2
    have h0 : s1.index pk = none := by simpa [containsKey] using hun
    have h3 : stateAt s1 pk c = none := by
      simp [stateAt, ((inv_run inv_empty hr1).view_none pk).2 h0]
    rw [h3]
    intro a ha; simp [submissions] at ha
  · obtain ⟨i, e, hK⟩ := keyOK hr1 hun h2 s2 hn hr2 htr H hpk hfb hut
    cases c with
    | processed => exact absurd rfl hc
    | confirmed => simpa [stateAt, hK.view, ByCommitment.get] using hK.conf
    | finalized => simpa [stateAt, hK.view, ByCommitment.get] using hK.fin

private theorem prefixes {par : Nat → Nat} {base : Nat} {pk : Pubkey} {h1 : List Op} {s1 : Store} : ∀ (h3 h2 : List Op),
    StaysTracked s1 (h2 ++ h3) pk ∧ OneChain par base (h1 ++ (h2 ++ h3)) ∧ UpdatesInTime par base pk h1 (h2 ++ h3) ∧
    ParentsKnown par base (h1 ++ (h2 ++ h3)) ∧ FinalizedBehind par base (h1 ++ (h2 ++ h3)) →
    StaysTracked s1 h2 pk ∧ OneChain par base (h1 ++ h2) ∧ UpdatesInTime par base pk h1 h2 ∧
    ParentsKnown par base (h1 ++ h2) ∧ FinalizedBehind par base (h1 ++ h2) := by
  intro h3
  refine snoc_induction (P := fun h3 => ∀ h2,
    StaysTracked s1 (h2 ++ h3) pk ∧ OneChain par base (h1 ++ (h2 ++ h3)) ∧ UpdatesInTime par base pk h1 (h2 ++ h3) ∧
    ParentsKnown par base (h1 ++ (h2 ++ h3)) ∧ FinalizedBehind par base (h1 ++ (h2 ++ h3)) →
    StaysTracked s1 h2 pk ∧ OneChain par base (h1 ++ h2) ∧ UpdatesInTime par base pk h1 h2 ∧
    ParentsKnown par base (h1 ++ h2) ∧ FinalizedBehind par base (h1 ++ h2)) ?_ ?_ h3
  · intro h2 h; simpa using h
  · intro t op ih h2 ⟨a1, a2, a3, a4, a5⟩
    refine ih h2 ⟨?_, ?_, ?_, ?_, ?_⟩
    · exact fun p hp hpre => a1 p hp (List.IsPrefix.trans hpre (by rw [← List.append_assoc]; exact List.prefix_append _ _))
    · exact oneChain_init (op := op) (by simpa using a2)
    · exact updatesInTime_init (op := op) (by simpa using a3)
    · exact parentsKnown_init (op := op) (by simpa using a4)
    · exact finalizedBehind_init (op := op) (by simpa using a5)

/-- **C130 (partial)**. It holds if, while the listener listens, updates of `pk` arrive before their slot has the commitment it
listens to.  Missing: late updates (false, see below). -/
theorem C130_listener_partial (par : Nat → Nat) (base : Nat) (pk : Pubkey) (c : Commitment) (h1 h2 h3 : List Op)
    (s1 s2 s3 : Store) (v v' : Heard) (hc : c ≠ .processed)
    (hr1 : empty.run h1 = .ok s1) (hun : s1.containsKey pk = false) (hr2 : s1.run h2 = .ok s2)
    (htr : StaysTracked s1 (h2 ++ h3) pk) (H : OneChain par base (h1 ++ (h2 ++ h3)))
    (hut : UpdatesInTime par base pk h1 (h2 ++ h3)) (hpk : ParentsKnown par base (h1 ++ (h2 ++ h3)))
    (hfb : FinalizedBehind par base (h1 ++ (h2 ++ h3))) (hbs : BeforeSlot par c pk (h1 ++ h2) h3)
    (hv : s2.getAccount pk c = .ok (v pk)) (hl : listen c s2 v h3 = .ok (s3, v')) : s3.getAccount pk c = .ok (v' pk) := by
  induction h3 generalizing h2 s2 v with
  | nil =>
    simp only [listen, Run.ok.injEq, Prod.mk.injEq] at hl
    obtain ⟨rfl, rfl⟩ := hl
    exact hv
  | cons op h3 ih =>
    have e1 : h2 ++ op :: h3 = (h2 ++ [op]) ++ h3 := by simp
    rw [e1] at htr H hut hpk hfb
    obtain ⟨t1, H1, u1, p1, f1⟩ := prefixes h3 (h2 ++ [op]) ⟨htr, H, hut, hpk, hfb⟩
    obtain ⟨t0, H0, u0, p0, f0⟩ := prefixes [op] h2 ⟨t1, H1, u1, p1, f1⟩
    have hi1 := inv_run inv_empty hr1
    have hi2 := inv_run hi1 hr2
    have n0 := state_follows hr1 hun hr2 t0 H0 u0 p0 f0 hc
    have hbs' : BeforeSlot par c pk (h1 ++ (h2 ++ [op])) h3 := by
      intro pre F a d post he hk
      have := hbs (op :: pre) F a d post (by simp [he]) hk
      simpa using this
    have hrA : empty.run (h1 ++ h2) = .ok s2 := by rw [run_append, hr1]; exact hr2
    have hrun1 : ∀ s', s2.step op = .ok s' → s1.run (h2 ++ [op]) = .ok s' := by
      intro s' hs'
      rw [run_append, hr2]
      show s2.run [op] = _
      simp [run, hs']
    cases op with
    | update F a d =>
      simp only [listen, Run.bind_eq_ok] at hl
      obtain ⟨⟨s', b⟩, hup, hl⟩ := hl
      have hrun := hrun1 s' (by simp [step, hup])
      have n1 := state_follows hr1 hun hrun t1 H1 u1 p1 f1 hc
      refine ih (h2 ++ [.update F a d]) s' v hrun htr H hut hpk hfb hbs' ?_ hl
      have hsame : stateAt s' pk c = stateAt s2 pk c := by
        rw [submissions_append, submissions_update, ← List.append_assoc] at n1
        have n2 := newestWhere_congr n1 (fun b _ => visible_update)
        clear n1
        by_cases hak : a.pubkey = pk
        · rw [if_pos hak] at n2
          obtain ⟨rfl, hno⟩ := hbs [] F a d h3 rfl hak
          simp only [List.append_nil] at hno
          have hb := (hut h2 F a h3 (by simp) hak).1
          exact newestWhere_unique n2 ((newestWhere_snoc n0 a).2 (by
            rintro (hx | hx)
            · omega
            · exact hno hx))
        · rw [if_neg hak, List.append_nil] at n2
          exact newestWhere_unique n2 n0
      rw [getAccount_stateAt (inv_run hi1 hrun), hsame, ← getAccount_stateAt hi2, hv]
    | slot F σ info d =>
      simp only [listen, Run.bind_eq_ok] at hl
      obtain ⟨⟨s', r⟩, hps, hl⟩ := hl
      have hrun := hrun1 s' (by simp [step, hps])
      have n1 := state_follows hr1 hun hrun t1 H1 u1 p1 f1 hc
      rw [submissions_append, submissions_slot, List.append_nil, ← List.append_assoc] at n1
      refine ih (h2 ++ [.slot F σ info d]) s' _ hrun htr H hut hpk hfb hbs' ?_ hl
      rw [getAccount_stateAt hi2] at hv
      rw [getAccount_stateAt (inv_run hi1 hrun)]
      simp only [Run.ok.injEq] at hv ⊢
      by_cases hdc : d = c
      · subst hdc
        rw [if_pos rfl]
        obtain ⟨-, hnd, -, hrep, -⟩ := C20_reports_exactly_the_changes _ s2 hrA F σ info d s' r hps
        obtain ⟨s'', hs'', hck⟩ := t1 (h2 ++ [.slot F σ info d]) (by simp) (List.prefix_refl _)
        rw [hrun] at hs''; cases hs''
        have hrep := hrep hc pk hck
        by_cases hin : ∃ a ∈ r, a.pubkey = pk
        · obtain ⟨a, ha, hk⟩ := hin
          rw [((hrep a).1 ⟨ha, hk⟩).1, ← hk, learn_mem r v a hnd ha]
          rfl
        · rw [learn_other r v pk (fun a ha hk => hin ⟨a, ha, hk⟩), ← hv]
          congr 1
          cases hs : stateAt s' pk d with
          | some a =>
            by_cases h0 : stateAt s2 pk d = some a
            · exact h0.symm
            · exact absurd ⟨a, ((hrep a).2 ⟨hs, h0⟩).1, ((hrep a).2 ⟨hs, h0⟩).2⟩ hin
          | none =>
            rw [hs] at n1
            cases h0 : stateAt s2 pk d with
            | none => rfl
            | some x =>
              rw [h0] at n0
              obtain ⟨hm, hvis, -⟩ := newestWhere_mem n0
              refine absurd ?_ (n1 x hm)
              rcases hvis with hvis | ⟨t, ⟨G, τ, i, hmem, hi⟩, hanc⟩
              · exact Or.inl hvis
              · exact Or.inr ⟨t, ⟨G, τ, i, List.mem_append_left _ hmem, hi⟩, hanc⟩
      · rw [if_neg hdc, ← hv]
        congr 1
        exact newestWhere_unique (newestWhere_congr n1 (fun b _ => visible_other (Ne.symm hdc))) n0

/-! ## Examples -/

private def note (k : Nat) (c : Commitment) : Op := .slot allowAll .asIs ⟨k, skip7 k, 0⟩ c

private def alice (slot wv : Nat) : AccountData := Toy.acct Toy.alice Toy.prog 1 slot wv

def beforeB (par : Nat → Nat) (c : Commitment) (pk : Pubkey) (h pre : List Op) : Op → Bool
  | .update _ a d => a.pubkey != pk || (d == .processed && !onB par c (h ++ pre) a.slot)
  | _ => true

theorem beforeSlot_of {par : Nat → Nat} {c : Commitment} {pk : Pubkey} {h h3 : List Op} (h0 : par 0 = 0)
    (hpar : ∀ k, 0 < k → par k < k) (hc : eachB (beforeB par c pk h) [] h3 = true) : BeforeSlot par c pk h h3 := by
  intro pre F a d post he hpk
  have h3 := eachB_sound hc he
  simp only [List.nil_append, beforeB, Bool.or_eq_true, bne_iff_ne, ne_eq, Bool.and_eq_true, beq_iff_eq, Bool.not_eq_true'] at h3
  rcases h3 with h3 | ⟨h3, h4⟩
  · exact absurd hpk h3
  · exact ⟨h3, fun hon => by rw [(onB_iff h0 hpar).2 hon] at h4; cases h4⟩

def listenStart : List Op := [.update allowAll (alice 3 1) .finalized, note 6 .processed, .update allowAll (alice 6 1) .processed]

/-- A fork, a slot confirmed with its child, a finalized slot, and a closed account. -/
def listenRest : List Op :=
  [note 7 .processed, .update allowAll (alice 7 1) .processed, note 8 .processed, .update allowAll (alice 8 1) .processed,
    note 9 .processed, note 9 .confirmed, note 5 .finalized, note 6 .finalized,
    note 10 .processed, .update allowAll (Toy.acct Toy.alice Toy.prog 0 10 1) .processed, note 10 .confirmed]

/-- A listener that starts with what it reads. -/
def startsWith (c : Commitment) (s : Store) : Heard := fun pk =>
  match s.getAccount pk c with
  | .ok o => o
  | _ => none

/-- The conditions of `C130_listener_partial` are met for both commitments; the listener to confirmed slots learns that the account
is closed and the listener to finalized slots knows the state of slot 6. -/
example : ∃ s1 s2, empty.run forkStart = .ok s1 ∧ s1.containsKey Toy.alice = false ∧ s1.run listenStart = .ok s2 ∧
    StaysTracked s1 (listenStart ++ listenRest) Toy.alice ∧ OneChain skip7 5 (forkStart ++ (listenStart ++ listenRest)) ∧
    UpdatesInTime skip7 5 Toy.alice forkStart (listenStart ++ listenRest) ∧
    ParentsKnown skip7 5 (forkStart ++ (listenStart ++ listenRest)) ∧ FinalizedBehind skip7 5 (forkStart ++ (listenStart ++ listenRest)) ∧
    (∀ c, c ≠ .processed → BeforeSlot skip7 c Toy.alice (forkStart ++ listenStart) listenRest ∧
      s2.getAccount Toy.alice c = .ok (startsWith c s2 Toy.alice)) ∧
    startsWith .confirmed s2 Toy.alice = some (alice 3 1) ∧
    (∃ s3 v, listen .confirmed s2 (startsWith .confirmed s2) listenRest = .ok (s3, v) ∧ v Toy.alice = none) ∧
    (∃ s3 v, listen .finalized s2 (startsWith .finalized s2) listenRest = .ok (s3, v) ∧ v Toy.alice = some (alice 6 1)) := by
  refine ⟨_, _, rfl, by decide, rfl, staysTracked_of (by decide +kernel), oneChain_of skip7_zero skip7_lt (by decide) (by decide +kernel),
    inTime_of skip7_zero skip7_lt (by decide +kernel), parentsKnown_of skip7_zero skip7_lt anc_skip7_le (by decide +kernel),
    finalizedBehind_of (by decide +kernel), ?_, by decide +kernel, ⟨_, _, rfl, by decide +kernel⟩, ⟨_, _, rfl, by decide +kernel⟩⟩
  intro c hc
  cases c with
  | processed => exact absurd rfl hc
  | confirmed => exact ⟨beforeSlot_of skip7_zero skip7_lt (by decide +kernel), by decide +kernel⟩
  | finalized => exact ⟨beforeSlot_of skip7_zero skip7_lt (by decide +kernel), by decide +kernel⟩

/-! ## Counterexamples -/

/-- Slot 8 is updated after it was confirmed. -/
def lateUpdate : List Op :=
  [note 8 .processed, .update allowAll (alice 8 1) .processed, note 8 .confirmed, .update allowAll (alice 8 2) .processed]

/-- The claim is false: an update of a slot that is already confirmed is shown by confirmed reads, and no notification tells. -/
theorem C130_refuted : ¬ C130_statement := by
  intro h
  have h1 : ∃ s1 s2 s3 v', empty.run forkStart = .ok s1 ∧ s1.containsKey Toy.alice = false ∧ s1.run listenStart = .ok s2 ∧
      StaysTracked s1 (listenStart ++ lateUpdate) Toy.alice ∧
      s2.getAccount Toy.alice .confirmed = .ok (startsWith .confirmed s2 Toy.alice) ∧
      listen .confirmed s2 (startsWith .confirmed s2) lateUpdate = .ok (s3, v') ∧
      s3.getAccount Toy.alice .confirmed ≠ .ok (v' Toy.alice) :=
    ⟨_, _, _, _, rfl, by decide, rfl, staysTracked_of (by decide +kernel), by decide +kernel, rfl, by decide +kernel⟩
  obtain ⟨s1, s2, s3, v', a1, a2, a3, a4, a5, a6, a7⟩ := h1
  exact a7 (h skip7 5 Toy.alice .confirmed forkStart listenStart lateUpdate s1 s2 s3 _ v' (by decide) a1 a2 a3 a4
    (oneChain_of skip7_zero skip7_lt (by decide) (by decide +kernel)) (inTime_of skip7_zero skip7_lt (by decide +kernel))
    (parentsKnown_of skip7_zero skip7_lt anc_skip7_le (by decide +kernel)) (finalizedBehind_of (by decide +kernel)) a5 a6)

/-- Without the condition that the pubkey stays tracked: -/
def C130_untracked_statement : Prop :=
  ∀ (par : Nat → Nat) (base : Nat) (pk : Pubkey) (c : Commitment) (h1 h2 h3 : List Op) (s1 s2 s3 : Store) (v v' : Heard),
    c ≠ .processed → empty.run h1 = .ok s1 → s1.containsKey pk = false → s1.run h2 = .ok s2 →
    OneChain par base (h1 ++ (h2 ++ h3)) → UpdatesInTime par base pk h1 (h2 ++ h3) →
    ParentsKnown par base (h1 ++ (h2 ++ h3)) → FinalizedBehind par base (h1 ++ (h2 ++ h3)) →
    BeforeSlot par c pk (h1 ++ h2) h3 →
    s2.getAccount pk c = .ok (v pk) → listen c s2 v h3 = .ok (s3, v') → s3.getAccount pk c = .ok (v' pk)

/-- Only accounts of `prog` are asked for. -/
private def onlyProg : Filters := ⟨fun a => a.account.owner = Toy.prog, fun _ => true⟩

private def noteF (k : Nat) (c : Commitment) : Op := .slot onlyProg .asIs ⟨k, skip7 k, 0⟩ c

/-- The account gets another owner in slot 8, and is dropped when slot 8 is finalized. -/
def leaves : List Op :=
  [noteF 8 .processed, .update onlyProg (Toy.acct Toy.alice Toy.prog2 1 8 1) .processed, noteF 8 .confirmed, noteF 9 .processed,
    noteF 9 .confirmed, noteF 5 .finalized, noteF 8 .finalized]

/-- It is false for both commitments: a listener still shows an account that the store dropped. -/
theorem C130_untracked_refuted : ¬ C130_untracked_statement ∧ ∀ c, c ≠ .processed → ∃ s1 s2 s3 v',
    empty.run forkStart = .ok s1 ∧ s1.run listenStart = .ok s2 ∧ listen c s2 (startsWith c s2) leaves = .ok (s3, v') ∧
      s3.getAccount Toy.alice c = .ok none ∧ v' Toy.alice = some (Toy.acct Toy.alice Toy.prog2 1 8 1) := by
  constructor
  · intro h
    have h1 : ∃ s1 s2 s3 v', empty.run forkStart = .ok s1 ∧ s1.containsKey Toy.alice = false ∧ s1.run listenStart = .ok s2 ∧
        s2.getAccount Toy.alice .confirmed = .ok (startsWith .confirmed s2 Toy.alice) ∧
        listen .confirmed s2 (startsWith .confirmed s2) leaves = .ok (s3, v') ∧
        s3.getAccount Toy.alice .confirmed ≠ .ok (v' Toy.alice) :=
      ⟨_, _, _, _, rfl, by decide, rfl, by decide +kernel, rfl, by decide +kernel⟩
    obtain ⟨s1, s2, s3, v', a1, a2, a3, a5, a6, a7⟩ := h1
    exact a7 (h skip7 5 Toy.alice .confirmed forkStart listenStart leaves s1 s2 s3 _ v' (by decide) a1 a2 a3
      (oneChain_of skip7_zero skip7_lt (by decide) (by decide +kernel)) (inTime_of skip7_zero skip7_lt (by decide +kernel))
      (parentsKnown_of skip7_zero skip7_lt anc_skip7_le (by decide +kernel)) (finalizedBehind_of (by decide +kernel))
      (beforeSlot_of skip7_zero skip7_lt (by decide +kernel)) a5 a6)
  · intro c hc
    cases c with
    | processed => exact absurd rfl hc
    | confirmed => exact ⟨_, _, _, _, rfl, rfl, rfl, by decide +kernel, by decide +kernel⟩
    | finalized => exact ⟨_, _, _, _, rfl, rfl, rfl, by decide +kernel, by decide +kernel⟩

end LAM.Props
