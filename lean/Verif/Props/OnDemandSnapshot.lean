import Verif.Props.OnDemandStore
/-!
# Snapshots of a storage that loads on demand: C124
-/
namespace LAM.Props
open Spec Store Demand

/-- **C124** as claimed: what one storage that loads on demand puts into the snapshot of a program is found again, without asking the
source, in any other such storage that loads the snapshot and did not know the accounts. -/
def C124_statement : Prop :=
  ∀ (X : Codecs) (busy : Nat → Bool) (w w₀ : Sys) (h h₀ : List Op) (gs gs₀ : List AccountFilter) (p : Pubkey) (bs : Bytes)
    (l : List AccountData),
    Came X w h gs → Came X w₀ h₀ gs₀ → HonestHistory X h → (∀ F a c, Op.update F a c ∈ h → Fits a) →
    w.store.getProgramAccounts X (filtersOf X w.filters) busy p none .finalized = .ok (.ok l) → U64 l.length →
    Demand.createSnapshot X busy w p = .ok (.ok bs) →
    (∀ a ∈ l, w₀.store.containsKey a.pubkey = false) →
    ∃ w₁, Demand.loadFromSnapshot X w₀ bs = .ok (w₁, .ok ()) ∧
      ∀ a ∈ l, 0 < a.account.lamports → ∀ S c, Demand.getAccount X S w₁ a.pubkey c = .ok (w₁, .ok (some a))

/-- The storage after the source's only account of the program was queried. -/
def queried : Sys :=
  match Demand.getProgramAccounts Toy.codecs (sourceOf [Toy.acct Toy.alice Toy.prog 1 5 1]) (fun _ => false) fresh Toy.prog none .finalized with
  | .ok (w, _) => w
  | _ => fresh

theorem queried_came : ∃ F, Came Toy.codecs queried [.update F (Toy.acct Toy.alice Toy.prog 1 5 1) .finalized] [programFilter Toy.prog none] := by
  obtain ⟨w', r, F, h1, -, -, -, -, h2, -⟩ := C97_loaded_partial Toy.codecs (sourceOf [Toy.acct Toy.alice Toy.prog 1 5 1]) (fun _ => false) fresh
    [] [] Toy.prog none [Toy.acct Toy.alice Toy.prog 1 5 1] .finalized (fresh_came _) (by intro F a c hm; cases hm)
    (by intro l hl; cases hl) (Or.inl (by intro l hl; cases hl)) rfl rfl ⟨fun _ => rfl, rfl⟩
    { honest := by intro a ha; simp at ha; subst ha; exact ⟨[1, 2, 3], rfl, rfl⟩
      owner := by intro a ha; simp at ha; subst ha; rfl
      selected := by intro a ha l hl; cases hl
      alive := by intro a ha; simp at ha; subst ha; decide
      distinct := by simp
      untracked := by intro a ha; rfl
      stable := by intro a ha b hb; cases hb }
  refine ⟨F, ?_⟩
  have : queried = w' := by simp only [queried, h1]
  rw [this]
  exact h2

/-- What goes into the snapshot decodes to what the finalized query lists. -/
theorem demand_snapshot {X : Codecs} {busy : Nat → Bool} {w : Sys} {h : List Op} {gs : List AccountFilter} (hw : Came X w h gs)
    (hfit : ∀ F a c, Op.update F a c ∈ h → Fits a) {p : Pubkey} {bs : Bytes} {l : List AccountData}
    (hl : w.store.getProgramAccounts X (filtersOf X w.filters) busy p none .finalized = .ok (.ok l)) (hlen : U64 l.length)
    (hb : Demand.createSnapshot X busy w p = .ok (.ok bs)) : Bincode.deserialize bs = some l := by
  obtain ⟨l', hl', hd⟩ := C32_snapshot_roundtrip h w.store hw.store hfit X _ busy p bs hb
  rw [hl] at hl'
  cases hl'
  exact hd hlen

theorem fits_alice : Fits (Toy.acct Toy.alice Toy.prog 1 5 1) :=
  ⟨by decide, by simp [DataFits, Toy.acct, U64], by decide, by decide, by decide⟩

/-- **C124** is false: a storage without filters drops the account and reports success. -/
theorem C124_refuted : ¬ C124_statement := by
  intro hst
  obtain ⟨F, hc⟩ := queried_came
  have hfit : ∀ F' a c, Op.update F' a c ∈ [Op.update F (Toy.acct Toy.alice Toy.prog 1 5 1) .finalized] → Fits a := by
    intro F' a c hm
    simp only [List.mem_singleton, Op.update.injEq] at hm
    rw [hm.2.1]
    exact fits_alice
  obtain ⟨bs, hb⟩ : ∃ bs, Demand.createSnapshot Toy.codecs (fun _ => false) queried Toy.prog = .ok (.ok bs) := ⟨_, rfl⟩
  have hl : queried.store.getProgramAccounts Toy.codecs (filtersOf Toy.codecs queried.filters) (fun _ => false) Toy.prog none .finalized =
      .ok (.ok [Toy.acct Toy.alice Toy.prog 1 5 1]) := by rfl
  obtain ⟨w₁, h1, h2⟩ := hst Toy.codecs (fun _ => false) queried fresh _ [] _ [] Toy.prog bs _ hc (fresh_came _)
    (by
      intro F' a c hm
      simp only [List.mem_singleton, Op.update.injEq] at hm
      rw [hm.2.1]
      exact ⟨[1, 2, 3], rfl, rfl⟩) hfit hl (by simp [U64]) hb (by intro a ha; rfl)
  have hd := demand_snapshot hc hfit hl (by simp [U64]) hb
  have hlo : Demand.loadFromSnapshot Toy.codecs fresh bs = .ok (fresh, .ok ()) := by
    simp only [Demand.loadFromSnapshot, Store.loadFromSnapshot, hd]
    rfl
  rw [hlo] at h1
  cases h1
  have := h2 (Toy.acct Toy.alice Toy.prog 1 5 1) (by simp) (by decide) (sourceOf []) .finalized
  have h3 : Demand.getAccount Toy.codecs (sourceOf []) fresh Toy.alice .finalized = .ok (fresh, .ok none) :=
    C96_unregistered _ _ _ [] [] _ [] _ (fresh_came _) rfl rfl ⟨fun _ => rfl, rfl⟩ (by simp)
  rw [show (Toy.acct Toy.alice Toy.prog 1 5 1).pubkey = Toy.alice from rfl, h3] at this
  cases this

/-- Nothing is loaded on demand for a snapshot: a program that is not configured is answered with an error, whatever the storage holds. -/
theorem C124_not_on_demand (X : Codecs) (busy : Nat → Bool) (w : Sys) (p : Pubkey)
    (hc : w.filters.containsFilter (programFilter p none) = false) :
    Demand.createSnapshot X busy w p = .ok (.error .configDoesNotContainRequiredFilters) := by
  have : (filtersOf X w.filters).contains ⟨[], some p, none⟩ = false := hc
  simp only [Demand.createSnapshot, Store.createSnapshot, getProgramAccounts_eq, this, Bool.false_eq_true, if_false]
  rfl

/-- Why **C124** fails, in general: accounts that no configured filter asks for are dropped, and the call reports success. -/
theorem C124_dropped (X : Codecs) (w₀ : Sys) (h₀ : List Op) (gs₀ : List AccountFilter) (bs : Bytes) (l : List AccountData)
    (hw : Came X w₀ h₀ gs₀) (hd : Bincode.deserialize bs = some l)
    (hl : ∀ a ∈ l, w₀.store.containsKey a.pubkey = false ∧ ∃ d, contents X a.account.data = some d ∧ ∀ f ∈ gs₀, ¬ Matches X f a d) :
    Demand.loadFromSnapshot X w₀ bs = .ok (w₀, .ok ()) := by
  have hload : initAll (filtersOf X w₀.filters) w₀.store l = .ok w₀.store := by
    refine load_rejected hw.store (fun a ha => ?_)
    obtain ⟨hun, d, hdd, hn⟩ := hl a ha
    refine ⟨hun, ?_⟩
    cases hx : (filtersOf X w₀.filters).satisfies a with
    | false => rfl
    | true =>
      obtain ⟨f, hf, hm⟩ := (configured_accepts hw.filters hdd).1 hx
      exact absurd hm (hn f hf)
  simp [Demand.loadFromSnapshot, Store.loadFromSnapshot, hd, hload]

/-- **C124 (partial)**. If each account of the snapshot is asked for by some filter of the receiving storage, the snapshot is loaded, and each
account with lamports is found there at every commitment, whatever the source; an account that the snapshot does not mention reads as before.
If the receiving storage has the program configured, and did not know the accounts under another program, its program query lists them.
Missing: accounts that no filter of the receiving storage asks for. -/
theorem C124_transfer_partial (X : Codecs) (busy : Nat → Bool) (w w₀ : Sys) (h h₀ : List Op) (gs gs₀ : List AccountFilter) (p : Pubkey)
    (bs : Bytes) (l : List AccountData) (hw : Came X w h gs) (hw₀ : Came X w₀ h₀ gs₀) (hh : HonestHistory X h)
    (hfit : ∀ F a c, Op.update F a c ∈ h → Fits a)
    (hl : w.store.getProgramAccounts X (filtersOf X w.filters) busy p none .finalized = .ok (.ok l)) (hlen : U64 l.length)
    (hb : Demand.createSnapshot X busy w p = .ok (.ok bs))
    (hun : ∀ a ∈ l, w₀.store.containsKey a.pubkey = false)
    (hm : ∀ a ∈ l, ∀ d, contents X a.account.data = some d → ∃ f ∈ gs₀, Matches X f a d) :
    ∃ w₁, Demand.loadFromSnapshot X w₀ bs = .ok (w₁, .ok ()) ∧
      (∃ F, Came X w₁ (h₀ ++ l.map (fun a => Op.update F a .finalized)) gs₀) ∧ w₁.filters = w₀.filters ∧
      (∀ a ∈ l, 0 < a.account.lamports → ∀ S c, Demand.getAccount X S w₁ a.pubkey c = .ok (w₁, .ok (some a))) ∧
      (∀ pk, (∀ a ∈ l, a.pubkey ≠ pk) → ∀ c, w₁.store.getAccount pk c = w₀.store.getAccount pk c) ∧
      (HonestHistory X h₀ → w₀.filters.containsFilter (programFilter p none) = true →
        (∀ a ∈ l, ∀ b ∈ submissions a.pubkey h₀, b.account.owner = p) →
        ∀ S busy' c, ∃ r, Demand.getProgramAccounts X S busy' w₁ p none c = .ok (w₁, .ok r) ∧
          ∀ a ∈ l, 0 < a.account.lamports → ∃ b ∈ r, SameAccount X a b) := by
  have hd := demand_snapshot hw hfit hl hlen hb
  obtain ⟨hnd, hsound⟩ := C27_query_sound h w.store hw.store X _ busy p none .finalized l hl
  have hhon : ∀ a ∈ l, Honest X a := by
    intro a ha
    obtain ⟨-, F, c, hin⟩ := mem_submissions.1 (stateAt_submitted hw.store (query_none_exact hw.store hl a ha))
    exact hh F a c hin
  obtain ⟨s', hload, hrun⟩ := load_run hw₀.store (filtersOf X w₀.filters) l
  have hread : ∀ a ∈ l, 0 < a.account.lamports → ∀ c, s'.getAccount a.pubkey c = .ok (some a) := by
    intro a ha hlam
    obtain ⟨d, hdd, -⟩ := hhon a ha
    exact view_read hrun (load_view hw₀.store hload ha hnd (hun a ha) ((configured_accepts hw₀.filters hdd).2 (hm a ha d hdd))) hlam
  refine ⟨{ w₀ with store := s' }, by simp [Demand.loadFromSnapshot, Store.loadFromSnapshot, hd, hload], ⟨_, hrun, hw₀.filters⟩, rfl,
    fun a ha hlam S c => C96_stored_direct X S _ _ a c (hread a ha hlam c), ?_, ?_⟩
  · intro pk hpk c
    show s'.getAccount pk c = _
    rw [getAccount_stateAt (inv_run inv_empty hrun), getAccount_stateAt (inv_run inv_empty hw₀.store), stateAt, stateAt,
      load_isolated hw₀.store hload hpk]
  · intro hh₀ hc hst S busy' c
    have hh' : HonestHistory X (h₀ ++ l.map (fun a => Op.update (filtersOf X w₀.filters) a .finalized)) := by
      intro F a c' hin
      rcases List.mem_append.1 hin with hin | hin
      · exact hh₀ F a c' hin
      · simp only [List.mem_map, Op.update.injEq] at hin
        obtain ⟨b, hb, -, rfl, -⟩ := hin
        exact hhon b hb
    have hq : QueryWellFormed X none := by intro l hl; cases hl
    rcases C34_rejected_iff_not_contained _ s' hrun X hh' (filtersOf X w₀.filters) busy' p none c hq with ⟨hx, -⟩ | ⟨-, r, hr⟩
    · rw [show (filtersOf X w₀.filters).contains ⟨[], some p, none⟩ = true from hc] at hx
      cases hx
    refine ⟨r, ?_, fun a ha hlam => ?_⟩
    · rw [C97_contained_direct X S busy' { w₀ with store := s' } p none c hc]
      show Run.map _ (s'.getProgramAccounts X (filtersOf X w₀.filters) busy' p none c) = _
      rw [hr]
      rfl
    · refine C28_query_complete_partial _ s' hrun X hh' (filtersOf X w₀.filters) busy' p none c r hq hr a.pubkey a ?_ (hread a ha hlam c)
        (by intro l hl; cases hl)
      intro b hb
      rw [submissions_append] at hb
      rcases List.mem_append.1 hb with hb | hb
      · exact hst a ha b hb
      · obtain ⟨-, F, c', hin⟩ := mem_submissions.1 hb
        simp only [List.mem_map, Op.update.injEq] at hin
        obtain ⟨x, hx, -, rfl, -⟩ := hin
        exact (hsound x hx).1

/-- A storage with nothing but the program configured takes the snapshot over. -/
example : ∃ w₀ w₁ bs, Demand.createSnapshot Toy.codecs (fun _ => false) queried Toy.prog = .ok (.ok bs) ∧
    Demand.loadFromSnapshot Toy.codecs w₀ bs = .ok (w₁, .ok ()) ∧ w₀.store = .empty ∧
    Demand.getAccount Toy.codecs (sourceOf []) w₁ Toy.alice .confirmed = .ok (w₁, .ok (some (Toy.acct Toy.alice Toy.prog 1 5 1))) := by
  obtain ⟨F, hc⟩ := queried_came
  obtain ⟨filters, h1, h2, -⟩ := query_configured (X := Toy.codecs) (p := Toy.prog) (fs := none) (fresh_came Toy.codecs).filters
    (by intro l hl; cases hl) (Or.inl (by intro l hl; cases hl))
  obtain ⟨bs, hb⟩ : ∃ bs, Demand.createSnapshot Toy.codecs (fun _ => false) queried Toy.prog = .ok (.ok bs) := ⟨_, rfl⟩
  obtain ⟨w₁, h3, -, -, h4, -⟩ := C124_transfer_partial Toy.codecs (fun _ => false) queried ⟨.empty, filters, fun _ => false, fun _ => false⟩ _ []
    _ _ Toy.prog bs [Toy.acct Toy.alice Toy.prog 1 5 1] hc ⟨rfl, h2⟩
    (by
      intro F' a c hm
      simp only [List.mem_singleton, Op.update.injEq] at hm
      rw [hm.2.1]
      exact ⟨[1, 2, 3], rfl, rfl⟩)
    (by
      intro F' a c hm
      simp only [List.mem_singleton, Op.update.injEq] at hm
      rw [hm.2.1]
      exact fits_alice) rfl (by simp [U64]) hb (by intro a ha; rfl)
    (by
      intro a ha d hd
      simp only [List.mem_singleton] at ha
      subst ha
      exact ⟨programFilter Toy.prog none, by simp, Or.inr ⟨rfl, by intro l hl; cases hl⟩⟩)
  exact ⟨_, w₁, bs, hb, h3, rfl, h4 (Toy.acct Toy.alice Toy.prog 1 5 1) (by simp) (by decide) _ _⟩

/-- The snapshot of a program that nobody queried is refused, though the source has accounts of it. -/
example : Demand.createSnapshot Toy.codecs (fun _ => false) queried Toy.prog2 = .ok (.error .configDoesNotContainRequiredFilters) :=
  C124_not_on_demand _ _ _ _ (by decide)

/-- A storage that follows another program drops the snapshot and reports success. -/
example : ∃ w₀ bs, Came Toy.codecs w₀ [] [programFilter Toy.prog2 none] ∧
    Demand.createSnapshot Toy.codecs (fun _ => false) queried Toy.prog = .ok (.ok bs) ∧
    Demand.loadFromSnapshot Toy.codecs w₀ bs = .ok (w₀, .ok ()) := by
  obtain ⟨F, hc⟩ := queried_came
  obtain ⟨filters, h1, h2, -⟩ := query_configured (X := Toy.codecs) (p := Toy.prog2) (fs := none) (fresh_came Toy.codecs).filters
    (by intro l hl; cases hl) (Or.inl (by intro l hl; cases hl))
  obtain ⟨bs, hb⟩ : ∃ bs, Demand.createSnapshot Toy.codecs (fun _ => false) queried Toy.prog = .ok (.ok bs) := ⟨_, rfl⟩
  have hcame : Came Toy.codecs ⟨.empty, filters, fun _ => false, fun _ => false⟩ [] [programFilter Toy.prog2 none] := ⟨rfl, h2⟩
  refine ⟨_, bs, hcame, hb, C124_dropped _ _ _ _ bs [Toy.acct Toy.alice Toy.prog 1 5 1] hcame
    (demand_snapshot hc (by
      intro F' a c hm
      simp only [List.mem_singleton, Op.update.injEq] at hm
      rw [hm.2.1]
      exact fits_alice) rfl (by simp [U64]) hb) ?_⟩
  intro a ha
  simp only [List.mem_singleton] at ha
  subst ha
  refine ⟨rfl, [1, 2, 3], rfl, ?_⟩
  intro f hf hm
  simp only [List.mem_singleton] at hf
  subst hf
  rcases hm with hm | ⟨hm, -⟩
  · simp [programFilter] at hm
  · revert hm; decide

end LAM.Props
