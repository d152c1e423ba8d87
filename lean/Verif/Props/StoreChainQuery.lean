import Verif.Lemmas.StoreChainOwner
import Verif.Lemmas.StoreChainOwnerCheck
import Verif.Props.StoreChain
import Verif.Props.StoreQueries
/-!
# Confirmed and finalized program queries follow the chain: C129
-/
namespace LAM.Props
open Spec Store

/-- The history follows one chain, as `C127_follows_chain_partial` asks for; `h1` are the calls until `pk` is tracked and `h2` the
calls since then. -/
structure OnOneChain (par : Nat → Nat) (base : Nat) (pk : Pubkey) (h1 h2 : List Op) (s1 s2 : Store) : Prop where
  run1 : empty.run h1 = .ok s1
  untracked : s1.containsKey pk = false
  run2 : s1.run h2 = .ok s2
  tracked : StaysTracked s1 h2 pk
  chain : OneChain par base (h1 ++ h2)
  inTime : UpdatesInTime par base pk h1 h2
  known : ParentsKnown par base (h1 ++ h2)
  behind : FinalizedBehind par base (h1 ++ h2)

/-- The answer `r` has of `pk` exactly the state `o`, if this is a state of an open account of the program that the filters
select. -/
def ListsOnly (X : Codecs) (pk p : Pubkey) (fs : Option (List AccountFilterType)) (o : Option AccountData) (r : List AccountData) :
    Prop :=
  (∀ b ∈ r, b.pubkey = pk → ∃ a, o = some a ∧ 0 < a.account.lamports ∧ a.account.owner = p ∧ Selected X fs a ∧ SameAccount X a b) ∧
  ∀ a, o = some a → 0 < a.account.lamports → a.account.owner = p → Selected X fs a → ∃ b ∈ r, SameAccount X a b

/-- **C129**, the full claim: a confirmed or finalized program query shows of each account its newest state on the chain. -/
def C129_statement : Prop :=
  ∀ (X : Codecs) (par : Nat → Nat) (base : Nat) (pk : Pubkey) (h1 h2 : List Op) (s1 s2 : Store),
    OnOneChain par base pk h1 h2 s1 s2 → (∀ a ∈ submissions pk h2, Honest X a) →
    (∀ F a c, Op.update F a c ∈ h2 → F.satisfies a = true) →
    ∀ F busy p fs c r o, c ≠ .processed → QueryWellFormed X fs → getProgramAccounts X F busy s2 p fs c = .ok (.ok r) →
      NewestWhere (ChainVisible par base c (h1 ++ h2)) (submissions pk h2) o → ListsOnly X pk p fs o r

private theorem newestWhere_unique {P : AccountData → Prop} {L : List AccountData} {o o' : Option AccountData}
    (h : NewestWhere P L o) (h' : NewestWhere P L o') : o = o' := by
  cases o with
  | none =>
    cases o' with
    | none => rfl
    | some b => obtain ⟨hm, hp, -⟩ := newestWhere_mem h'; exact absurd hp (h b hm)
  | some a =>
    cases o' with
    | none => obtain ⟨hm, hp, -⟩ := newestWhere_mem h; exact absurd hp (h' a hm)
    | some b =>
      obtain ⟨l1, l2, rfl, ha, h1, h2⟩ := h
      obtain ⟨m1, m2, he, hb, g1, g2⟩ := h'
      rw [List.append_eq_append_iff] at he
      rcases he with ⟨t, rfl, ht⟩ | ⟨t, rfl, ht⟩
      · cases t with
        | nil => simp only [List.nil_append, List.cons.injEq] at ht; rw [ht.1]
        | cons x t =>
          simp only [List.cons_append, List.cons.injEq] at ht
          obtain ⟨rfl, rfl⟩ := ht
          exact absurd (g1 a (by simp) ha) (h2 b (by simp) hb)
      · cases t with
        | nil => simp only [List.nil_append, List.cons.injEq] at ht; rw [ht.1]
        | cons x t =>
          simp only [List.cons_append, List.cons.injEq] at ht
          obtain ⟨rfl, rfl⟩ := ht
          exact absurd (h1 b (by simp) hb) (g2 a (by simp) ha)

private theorem of_shown {a y : AccountData} (h : shown y = some a) : 0 < a.account.lamports ∧ y = a := by
  unfold shown at h; split at h <;> simp_all

private theorem inv2 {par : Nat → Nat} {base : Nat} {pk : Pubkey} {h1 h2 : List Op} {s1 s2 : Store}
    (H : OnOneChain par base pk h1 h2 s1 s2) : Inv s2 := inv_run (inv_run inv_empty H.run1) H.run2

private theorem found {par : Nat → Nat} {base : Nat} {X : Codecs} {pk : Pubkey} {h1 h2 : List Op} {s1 s2 : Store}
    (H : OnOneChain par base pk h1 h2 s1 s2) (hh : ∀ a ∈ submissions pk h2, Honest X a) (hS : OwnersSettle par base pk h1 h2)
    {F : Filters} {busy : Nat → Bool} {p : Pubkey} {fs : Option (List AccountFilterType)} {c : Commitment} {r : List AccountData}
    (hw : QueryWellFormed X fs) (hr : getProgramAccounts X F busy s2 p fs c = .ok (.ok r)) {a : AccountData}
    (ha : stateAt s2 pk c = some a) (hl : 0 < a.account.lamports) (ho : a.account.owner = p) (hsel : Selected X fs a) :
    ∃ b ∈ r, SameAccount X a b := by
  have hn : h2 ≠ [] := by
    rintro rfl
    have := H.run2
    simp only [run, Run.ok.injEq] at this; subst this
    have hu : s1.index pk = none := by simpa [containsKey] using H.untracked
    simp [stateAt, ((inv2 H).view_none pk).2 hu] at ha
  obtain ⟨i, e, hK, hL⟩ := listed_run H.run1 H.untracked h2 s2 hn H.run2 H.tracked H.chain H.known H.behind H.inTime hS
  have hok := (inv2 H).view hK.view
  rw [stateAt, hK.view] at ha
  have ha : e.get c = some a := ha
  have hacc : s2.accounts[i]? = some e := by rw [← view_of_index hK.index]; exact hK.view
  have hown := hL.listed a (ByCommitment.holds_get hok ha) hl (fun x hx => (hK.get_ge hok H.chain H.behind hx).2 c a ha)
  obtain ⟨x, hx, hcomp⟩ := gpaOne_complete (X := X) (e := e) (c := c) p hw
    (fun b hb => hh b (hL.submitted b (ByCommitment.holds_get hok hb)))
  obtain ⟨b, hb, hsame⟩ := hcomp a ha ho hl hsel
  refine ⟨b, (mem_query (inv2 H) ⟨hK.index, e, hacc, fun _ => rfl⟩ hr b ?_).2 ⟨by rw [← ho]; exact hown, e, x, hacc, hx, hb⟩, hsame⟩
  rw [hsame.pubkey]; exact hok.get_pubkey ha

/-- **C129 (partial)**, part 1: an account that does not go back to an owner it left is found, at every commitment.  Missing:
accounts that go back, and the other conditions of `OwnersSettle` (false, see below). -/
theorem C129_found_partial (X : Codecs) (par : Nat → Nat) (base : Nat) (pk : Pubkey) (h1 h2 : List Op) (s1 s2 : Store)
    (H : OnOneChain par base pk h1 h2 s1 s2) (hh : ∀ a ∈ submissions pk h2, Honest X a) (hS : OwnersSettle par base pk h1 h2)
    (F : Filters) (busy : Nat → Bool) (fs : Option (List AccountFilterType)) (c : Commitment) (r : List AccountData)
    (a : AccountData) (hw : QueryWellFormed X fs) (ha : s2.getAccount pk c = .ok (some a))
    (hr : getProgramAccounts X F busy s2 a.account.owner fs c = .ok (.ok r)) (hsel : Selected X fs a) :
    ∃ b ∈ r, SameAccount X a b := by
  rw [getAccount_stateAt (inv2 H)] at ha
  simp only [Run.ok.injEq] at ha
  obtain ⟨y, hy, hsh⟩ := Option.bind_eq_some_iff.1 ha
  obtain ⟨hl, rfl⟩ := of_shown hsh
  exact found H hh hS hw hr hy hl rfl hsel

/-- **C129 (partial)**, part 2: confirmed and finalized queries show exactly the newest state on the chain.  Missing: as before, and
closed accounts of the program in queries without filters (false). -/
theorem C129_follows_chain_partial (X : Codecs) (par : Nat → Nat) (base : Nat) (pk : Pubkey) (h1 h2 : List Op) (s1 s2 : Store)
    (H : OnOneChain par base pk h1 h2 s1 s2) (hh : ∀ a ∈ submissions pk h2, Honest X a) (hS : OwnersSettle par base pk h1 h2)
    (F : Filters) (busy : Nat → Bool) (p : Pubkey) (fs : Option (List AccountFilterType)) (c : Commitment) (r : List AccountData)
    (o : Option AccountData) (hc : c ≠ .processed) (hw : QueryWellFormed X fs)
    (hcl : fs = none → ∀ a ∈ submissions pk h2, a.account.owner = p → 0 < a.account.lamports)
    (hr : getProgramAccounts X F busy s2 p fs c = .ok (.ok r))
    (ho : NewestWhere (ChainVisible par base c (h1 ++ h2)) (submissions pk h2) o) : ListsOnly X pk p fs o r := by
  have hrun : empty.run (h1 ++ h2) = .ok s2 := by rw [run_append, H.run1]; exact H.run2
  have hst : stateAt s2 pk c = o := by
    by_cases hn : h2 = []
    · have h0 := H.run2
      subst hn
      simp only [run, Run.ok.injEq] at h0; subst h0
      have hu : s1.index pk = none := by simpa [containsKey] using H.untracked
      rw [stateAt, ((inv2 H).view_none pk).2 hu]
      cases o with
      | none => rfl
      | some a => have := (newestWhere_mem ho).1; simp [submissions] at this
    · obtain ⟨i, e, hK⟩ := keyOK H.run1 H.untracked h2 s2 hn H.run2 H.tracked H.chain H.known H.behind H.inTime
      rw [stateAt, hK.view]
      cases c with
      | processed => exact absurd rfl hc
      | confirmed => exact newestWhere_unique hK.conf ho
      | finalized => exact newestWhere_unique hK.fin ho
  refine ⟨?_, fun a ha hl hown hsel => found H hh hS hw hr (by rw [hst, ha]) hl hown hsel⟩
  intro b hb hbk
  have hi := inv2 H
  rw [getProgramAccounts_eq] at hr
  split at hr
  · simp only [Run.bind_eq_ok, Run.pure_eq, Run.ok.injEq, Except.ok.injEq] at hr
    obtain ⟨r0, hr0, rfl⟩ := hr
    obtain ⟨i, -, e, x, he, hx, hbx⟩ := gpaPass_sound hr0 b hb
    obtain ⟨-, a, hg, hsame, hsel, hown, hlam⟩ := gpaOne_sound hx hbx
    obtain ⟨-, hv⟩ := index_of_get hi he hg
    rw [← hsame.pubkey, hbk] at hv
    have hoa : o = some a := by rw [← hst, stateAt, hv]; exact hg
    refine ⟨a, hoa, ?_, hown, hsel, hsame⟩
    by_cases hfs : fs = none
    · subst hoa
      exact hcl hfs a (newestWhere_mem ho).1 hown
    · exact hlam hfs
  · simp at hr

/-! ## Examples -/

private def note (k : Nat) (c : Commitment) : Op := .slot allowAll .asIs ⟨k, skip7 k, 0⟩ c

private def prog3 : Pubkey := Pubkey.fill 12

/-- Alice moves from `prog` to `prog2` in slot 6 and to `prog3` in slot 8; slot 7 is a fork. -/
def movingRest : List Op :=
  [.update allowAll (Toy.acct Toy.alice Toy.prog 1 3 1) .finalized, note 6 .processed,
    .update allowAll (Toy.acct Toy.alice Toy.prog2 1 6 1) .processed, note 7 .processed,
    .update allowAll (Toy.acct Toy.alice Toy.prog2 5 7 1) .processed, note 8 .processed,
    .update allowAll (Toy.acct Toy.alice prog3 1 8 1) .processed, note 9 .processed, note 9 .confirmed,
    .update allowAll (Toy.acct Toy.alice prog3 2 8 2) .processed, note 5 .finalized, note 6 .finalized]

/-- The conditions of both parts are met. -/
example : ∃ s1 s2, OnOneChain skip7 5 Toy.alice forkStart movingRest s1 s2 ∧
    OwnersSettle skip7 5 Toy.alice forkStart movingRest ∧
    (∀ a ∈ submissions Toy.alice movingRest, Honest Toy.codecs a ∧ 0 < a.account.lamports) ∧
    getProgramAccounts Toy.codecs allowAll (fun _ => false) s2 Toy.prog2 none .finalized =
      .ok (.ok [Toy.acct Toy.alice Toy.prog2 1 6 1]) ∧
    getProgramAccounts Toy.codecs allowAll (fun _ => false) s2 prog3 none .confirmed =
      .ok (.ok [Toy.acct Toy.alice prog3 2 8 2]) := by
  refine ⟨_, _, ⟨rfl, by decide, rfl, staysTracked_of (by decide +kernel),
    oneChain_of skip7_zero skip7_lt (by decide) (by decide +kernel), inTime_of skip7_zero skip7_lt (by decide +kernel),
    parentsKnown_of skip7_zero skip7_lt anc_skip7_le (by decide +kernel), finalizedBehind_of (by decide +kernel)⟩,
    settle_of skip7_zero skip7_lt (by decide +kernel), ?_, rfl, rfl⟩
  intro a ha
  have : submissions Toy.alice movingRest = [Toy.acct Toy.alice Toy.prog 1 3 1, Toy.acct Toy.alice Toy.prog2 1 6 1,
    Toy.acct Toy.alice Toy.prog2 5 7 1, Toy.acct Toy.alice prog3 1 8 1, Toy.acct Toy.alice prog3 2 8 2] := by decide +kernel
  rw [this] at ha
  simp only [List.mem_cons, List.not_mem_nil, or_false] at ha
  rcases ha with rfl | rfl | rfl | rfl | rfl <;> exact ⟨⟨[1, 2, 3], rfl, rfl⟩, by decide⟩

/-! ## Counterexamples -/

/-- After the history `pk` reads at `c` as an account of `p`, but a query for `p` does not list it. -/
def MissedAfter (par : Nat → Nat) (base : Nat) (pk p : Pubkey) (c : Commitment) (h1 h2 : List Op) : Prop :=
  ∃ s1 s2 a, OnOneChain par base pk h1 h2 s1 s2 ∧ (∀ a ∈ submissions pk h2, Honest Toy.codecs a) ∧
    (∀ F a c, Op.update F a c ∈ h2 → F.satisfies a = true) ∧ s2.getAccount pk c = .ok (some a) ∧ a.account.owner = p ∧
    ∃ r, getProgramAccounts Toy.codecs allowAll (fun _ => false) s2 p none c = .ok (.ok r) ∧ ∀ b ∈ r, b.pubkey ≠ pk

theorem missed_refutes {par : Nat → Nat} {base : Nat} {pk p : Pubkey} {c : Commitment} {h1 h2 : List Op} (hc : c ≠ .processed)
    (h : MissedAfter par base pk p c h1 h2) : ¬ C129_statement := by
  intro hst
  obtain ⟨s1, s2, a, H, hh, hf, ha, ho, r, hr, hm⟩ := h
  obtain ⟨o, hn, hg⟩ := C127_follows_chain_partial par base pk h1 h2 s1 s2 H.run1 H.untracked H.run2 H.tracked H.chain H.inTime
    H.known H.behind c hc
  rw [ha] at hg
  simp only [Run.ok.injEq] at hg
  obtain ⟨y, hy, hsh⟩ := Option.bind_eq_some_iff.1 hg.symm
  obtain ⟨hl, rfl⟩ := of_shown hsh
  obtain ⟨b, hb, hsame⟩ := (hst Toy.codecs par base pk h1 h2 s1 s2 H hh hf allowAll (fun _ => false) p none c r o hc
    (by intro l hl; cases hl) hr hn).2 y hy hl ho (by intro l hl; cases hl)
  rw [hy] at hn
  exact hm b hb (by rw [hsame.pubkey]; exact (mem_submissions.1 (newestWhere_mem hn).1).1)

private theorem missed_of {pk p : Pubkey} {c : Commitment} {h1 h2 : List Op} {s1 s2 : Store} {a : AccountData}
    (r1 : empty.run h1 = .ok s1) (un : s1.containsKey pk = false) (r2 : s1.run h2 = .ok s2) (tr : trackedB pk s1 h2 = true)
    (oc : OneChain skip7 5 (h1 ++ h2)) (it : UpdatesInTime skip7 5 pk h1 h2)
    (pn : ParentsKnown skip7 5 (h1 ++ h2)) (bh : FinalizedBehind skip7 5 (h1 ++ h2))
    (hd : ∀ b ∈ submissions pk h2, b.account.data = .uncompressed [1, 2, 3]) (hf : ∀ op ∈ h2, op.filters = allowAll)
    (hg : s2.getAccount pk c = .ok (some a)) (ho : a.account.owner = p)
    {r : List AccountData} (hq : getProgramAccounts Toy.codecs allowAll (fun _ => false) s2 p none c = .ok (.ok r))
    (hm : ∀ b ∈ r, b.pubkey ≠ pk) :
    MissedAfter skip7 5 pk p c h1 h2 :=
  ⟨s1, s2, a, ⟨r1, un, r2, staysTracked_of tr, oc, it, pn, bh⟩,
    fun b hb => ⟨[1, 2, 3], by rw [hd b hb]; rfl, by rw [hd b hb]; rfl⟩,
    fun F b d hm => by have := hf _ hm; simp only [Op.filters] at this; rw [this]; rfl, hg, ho, r, hq, hm⟩

/-- Alice moves to `prog2` in slot 6 and back in slot 8. -/
def movesBack : List Op :=
  [.update allowAll (Toy.acct Toy.alice Toy.prog 1 3 1) .finalized, note 6 .processed,
    .update allowAll (Toy.acct Toy.alice Toy.prog2 1 6 1) .processed, note 8 .processed,
    .update allowAll (Toy.acct Toy.alice Toy.prog 1 8 1) .processed, note 8 .confirmed, note 6 .finalized]

/-- An account that moves to another program and back is missing in confirmed queries once the first move is finalized. -/
theorem C129_moved_back : MissedAfter skip7 5 Toy.alice Toy.prog .confirmed forkStart movesBack :=
  missed_of rfl (by decide) rfl (by decide +kernel)
    (oneChain_of skip7_zero skip7_lt (by decide) (by decide +kernel)) (inTime_of skip7_zero skip7_lt (by decide +kernel))
    (parentsKnown_of skip7_zero skip7_lt anc_skip7_le (by decide +kernel)) (finalizedBehind_of (by decide +kernel))
    (by decide +kernel) (by intro op hop; simp [movesBack, note] at hop; rcases hop with rfl | rfl | rfl | rfl | rfl | rfl | rfl <;> rfl)
    (a := Toy.acct Toy.alice Toy.prog 1 8 1) (by decide +kernel) rfl rfl (by decide)

/-- Alice is closed in slot 6 (it goes to `prog2`) and opened by `prog2` in slot 8. -/
def reopened : List Op :=
  [.update allowAll (Toy.acct Toy.alice Toy.prog 1 3 1) .finalized, note 6 .processed,
    .update allowAll (Toy.acct Toy.alice Toy.prog2 0 6 1) .processed, note 6 .confirmed, note 8 .processed,
    .update allowAll (Toy.acct Toy.alice Toy.prog2 1 8 1) .processed, note 8 .confirmed]

/-- An account that is opened again by the owner it was closed under is missing. -/
theorem C129_reopened : MissedAfter skip7 5 Toy.alice Toy.prog2 .confirmed forkStart reopened :=
  missed_of rfl (by decide) rfl (by decide +kernel)
    (oneChain_of skip7_zero skip7_lt (by decide) (by decide +kernel)) (inTime_of skip7_zero skip7_lt (by decide +kernel))
    (parentsKnown_of skip7_zero skip7_lt anc_skip7_le (by decide +kernel)) (finalizedBehind_of (by decide +kernel))
    (by decide +kernel) (by intro op hop; simp [reopened, note] at hop; rcases hop with rfl | rfl | rfl | rfl | rfl | rfl | rfl <;> rfl)
    (a := Toy.acct Toy.alice Toy.prog2 1 8 1) (by decide +kernel) rfl rfl (by decide)

/-- An update of Alice comes before the snapshot that has her former owner. -/
def beforeSnapshot : List Op :=
  [.update allowAll (Toy.acct Toy.alice Toy.prog2 1 6 1) .processed, .update allowAll (Toy.acct Toy.alice Toy.prog 1 3 1) .finalized]

/-- An account of a snapshot that has already been moved (not yet confirmed) is missing. -/
theorem C129_before_snapshot :
    MissedAfter skip7 5 Toy.alice Toy.prog .finalized (forkStart ++ [note 6 .processed]) beforeSnapshot :=
  missed_of rfl (by decide) rfl (by decide +kernel)
    (oneChain_of skip7_zero skip7_lt (by decide) (by decide +kernel)) (inTime_of skip7_zero skip7_lt (by decide +kernel))
    (parentsKnown_of skip7_zero skip7_lt anc_skip7_le (by decide +kernel)) (finalizedBehind_of (by decide +kernel))
    (by decide +kernel) (by intro op hop; simp [beforeSnapshot] at hop; rcases hop with rfl | rfl <;> rfl)
    (a := Toy.acct Toy.alice Toy.prog 1 3 1) (by decide +kernel) rfl rfl (by decide)

/-- **C129** is false. -/
theorem C129_refuted : ¬ C129_statement := missed_refutes (by decide) C129_moved_back

end LAM.Props
