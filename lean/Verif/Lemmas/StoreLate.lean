import Verif.Lemmas.Gpa
import Verif.Model.Bincode
/-!
# States submitted as finalized that are older than the finalized state
-/
namespace LAM.Store
open Spec ByCommitment

/-- What reads of `pk` depend on: its index `i` and its states, as `g` gives them. -/
def HeldAt (s : Store) (pk : Pubkey) (i : Nat) (g : Commitment → Option AccountData) : Prop :=
  s.index pk = some i ∧ ∃ e, s.accounts[i]? = some e ∧ ∀ c, e.get c = g c

theorem update_get_late {pk : Pubkey} {e : ByCommitment} (h : EntryOK pk e) {x a : AccountData} (hx : e.finalized = some x)
    (ha : a.slot < x.slot) (c : Commitment) : (e.update a .finalized).1.get c = e.get c := by
  obtain ⟨-, y, hy, hxy⟩ := h.fin x hx
  obtain ⟨-, p, hp, hyp⟩ := h.conf y hy
  have hps : a.slot < p.slot := by simp only [Older] at hyp; omega
  have hl := last_updateProcessed h.sorted (fun k b hb => (h.keys k b hb).1) hp a
  rw [if_neg (by simp only [Older]; omega)] at hl
  have h1 : isNewer e.confirmed a = false := by
    simp only [hy, isNewer, Bool.or_eq_false_iff, decide_eq_false_iff_not, Bool.and_eq_false_iff, beq_eq_false_iff_ne]; omega
  have h2 : isNewer e.finalized a = false := by
    simp only [hx, isNewer, Bool.or_eq_false_iff, decide_eq_false_iff_not, Bool.and_eq_false_iff, beq_eq_false_iff_ne]; omega
  cases c with
  | processed => simp [ByCommitment.get, update_processed, hl, hp]
  | confirmed => simp [ByCommitment.get, update_confirmed, h1]
  | finalized => simp [ByCommitment.get, update_finalized, h2]

theorem HeldAt.view {s : Store} {pk : Pubkey} {i : Nat} {g : Commitment → Option AccountData} (h : HeldAt s pk i g) :
    ∃ e, s.view pk = some e ∧ s.accounts[i]? = some e ∧ ∀ c, e.get c = g c := by
  obtain ⟨h1, e, h2, h3⟩ := h
  exact ⟨e, by rw [view_of_index h1, h2], h2, h3⟩

theorem owns_ownerAfter_ne {F : Filters} {t : Store} {prev : Option AccountData} {a : AccountData} {i j : Nat} (hij : i ≠ j)
    {c : Commitment} {up : Bool} {o : Pubkey} : owns (ownerAfter F t prev a j c up) o i ↔ owns t o i := by
  unfold ownerAfter
  split
  · rw [owns_ownerStep, if_neg hij]
  · rfl

theorem owns_ownerAfter_same {F : Filters} {t : Store} {x a : AccountData} {i j : Nat} (ho : a.account.owner = x.account.owner)
    {c : Commitment} {up : Bool} {o : Pubkey} : owns (ownerAfter F t (some x) a j c up) o i ↔ owns t o i := by
  cases up with
  | false => rfl
  | true =>
    simp only [ownerAfter]
    rw [owns_ownerStep]
    split
    · simp [ListedAfter, ho]
    · rfl

theorem gpaPass_mem {X : Codecs} {s : Store} {c : Commitment} {p : Pubkey} {fs : Option (List AccountFilterType)} {l : List Nat} :
    ∀ {r}, gpaPass X s c p fs l = .ok r → ∀ {i}, i ∈ l → ∀ {e x}, s.accounts[i]? = some e → gpaOne X e c p fs = .ok x →
      ∀ {b}, b ∈ x → b ∈ r := by
  induction l with
  | nil => intro r _ i hi; simp at hi
  | cons j l ih =>
    intro r hr i hi e x he hx b hb
    obtain ⟨e', x', rs, he', hx', hrs, rfl⟩ := gpaPass_cons_ok.1 hr
    rcases List.mem_cons.1 hi with rfl | hi
    · rw [he] at he'; cases he'
      rw [hx] at hx'; cases hx'
      exact List.mem_append_left _ hb
    · exact List.mem_append_right _ (ih hrs hi he hx hb)

/-- One state of a snapshot. -/
theorem held_update {F : Filters} {s s' : Store} {a : AccountData} {b : Bool} {pk : Pubkey} {i : Nat}
    {g : Commitment → Option AccountData} {x : AccountData} (h : Inv s) (hg : HeldAt s pk i g) (hx : g .finalized = some x)
    (hu : s.updateAccount F a .finalized = .ok (s', b))
    (ha : a.pubkey = pk → a.slot < x.slot ∧
      (a.account.owner = x.account.owner ∨ (0 < a.account.lamports ∧ F.satisfies a = true))) :
    HeldAt s' pk i g ∧ ((a.pubkey = pk → a.account.owner = x.account.owner) → ∀ o, owns s' o i ↔ owns s o i) := by
  obtain ⟨s2, b2, he, hc⟩ := updateAccount_case h F a .finalized
  rw [hu] at he; cases he
  obtain ⟨hi, e, hacc, hget⟩ := hg
  have heff : s.effective a.slot .finalized = .finalized := by simp [effective]
  have hilt := h.lt hi
  cases hc with
  | rejected => exact ⟨⟨hi, e, hacc, hget⟩, fun _ _ => Iff.rfl⟩
  | created hi' hf =>
    have hne : pk ≠ a.pubkey := by rintro rfl; rw [hi'] at hi; cases hi
    refine ⟨⟨by simp [createdStore, hne, hi], e, ?_, hget⟩, fun _ o => ?_⟩
    · simp only [createdStore]; rw [List.getElem?_append_left hilt]; exact hacc
    · show owns (s.addAccountOwner s.accounts.length a.account.owner) o i ↔ _
      rw [owns_addAccountOwner]
      constructor
      · rintro (h | ⟨h, -⟩)
        · exact h
        · omega
      · exact Or.inl
  | kept j e2 hj hj2 hr =>
    rw [heff] at hr ⊢
    have hs : ∀ o e', owns ((s.addIndexToSlot a.slot j .finalized).1.setAt j e') o i ↔ owns s o i := by
      intro o e'
      simp only [owns, setAt, addIndexToSlot_byOwner]
    by_cases hp : a.pubkey = pk
    · subst hp
      rw [hj] at hi; cases hi
      rw [hj2] at hacc; injection hacc with hacc; subst hacc
      obtain ⟨hlt, hor⟩ := ha rfl
      have hok : EntryOK a.pubkey e2 := by
        obtain ⟨e3, h3, h4⟩ := h.idx _ _ hj
        rw [hj2] at h3; cases h3; exact h4
      have hfx : e2.finalized = some x := by rw [← hx, ← hget]; rfl
      refine ⟨⟨by simpa using hj, (e2.update a .finalized).1, ?_, fun c => ?_⟩, fun ho o => ?_⟩
      · simp [setAt, hilt]
      · rw [update_get_late hok hfx hlt, hget]
      · have hp : e2.get .finalized = some x := hfx
        rw [hp, owns_ownerAfter_same (ho rfl)]; exact hs o _
    · have hij : i ≠ j := by rintro rfl; exact hp (h.inj hj hi)
      refine ⟨⟨by simpa using hi, e, ?_, hget⟩, fun _ o => ?_⟩
      · simp only [ownerAfter_accounts, setAt, addIndexToSlot_accounts]
        rw [List.getElem?_set_ne hij.symm]; exact hacc
      · rw [owns_ownerAfter_ne hij]; exact hs o _
  | removed j e2 hj hj2 hr =>
    rw [heff] at hr ⊢
    by_cases hp : a.pubkey = pk
    · subst hp
      rw [hj] at hi; cases hi
      rw [hj2] at hacc; cases hacc
      obtain ⟨-, p, hpg, hrem⟩ := hr
      rw [hget, hx] at hpg; cases hpg
      obtain ⟨hlt, hor⟩ := ha rfl
      simp only [Removes, Bool.and_eq_true, decide_eq_true_eq, Bool.or_eq_true, Bool.not_eq_true', isDeleted, beq_iff_eq] at hrem
      rcases hor with ho | ⟨h1, h2⟩
      · exact absurd ho.symm hrem.1.1
      · rcases hrem.2 with h3 | h3
        · omega
        · rw [h2] at h3; cases h3
    · have hij : i ≠ j := by rintro rfl; exact hp (h.inj hj hi)
      refine ⟨⟨by simp [dropKey, Ne.symm hp, hi], e, ?_, hget⟩, fun _ o => ?_⟩
      · simp only [dropKey_accounts, setAt, ownerAfter_accounts, addIndexToSlot_accounts]
        rw [List.getElem?_set_ne hij.symm]; exact hacc
      · show owns (ownerAfter F (s.addIndexToSlot a.slot j .finalized).1 (e2.get .finalized) a j .finalized true) o i ↔ _
        have hs : owns (s.addIndexToSlot a.slot j .finalized).1 o i ↔ owns s o i := by
          simp only [owns, addIndexToSlot_byOwner]
        rw [owns_ownerAfter_ne hij]; exact hs

/-- All states of a snapshot. -/
theorem held_initAll {F : Filters} {pk : Pubkey} {i : Nat} {g : Commitment → Option AccountData} {x : AccountData}
    (hx : g .finalized = some x) (l : List AccountData) : ∀ {s s' : Store}, Inv s → HeldAt s pk i g → initAll F s l = .ok s' →
    (∀ a ∈ l, a.pubkey = pk → a.slot < x.slot ∧
      (a.account.owner = x.account.owner ∨ (0 < a.account.lamports ∧ F.satisfies a = true))) →
    Inv s' ∧ HeldAt s' pk i g ∧
      ((∀ a ∈ l, a.pubkey = pk → a.account.owner = x.account.owner) → ∀ o, owns s' o i ↔ owns s o i) := by
  induction l with
  | nil => intro s s' h hg hi _; simp [initAll] at hi; subst hi; exact ⟨h, hg, fun _ _ => Iff.rfl⟩
  | cons a l ih =>
    intro s s' h hg hi ha
    simp only [initAll, initializeOrUpdate, Run.bind_eq_ok, Run.pure_eq, Run.ok.injEq] at hi
    obtain ⟨_, ⟨⟨s1, b⟩, h1, rfl⟩, h2⟩ := hi
    obtain ⟨k1, k2⟩ := held_update h hg hx h1 (ha a (by simp))
    have hinv : Inv s1 := by
      obtain ⟨s2, b2, he, hc⟩ := updateAccount_case h F a .finalized
      rw [h1] at he; cases he
      exact inv_updateCase h hc
    obtain ⟨k3, k4, k5⟩ := ih hinv k1 h2 (fun b hb => ha b (by simp [hb]))
    exact ⟨k3, k4, fun ho o => (k5 (fun b hb => ho b (by simp [hb])) o).trans (k2 (ho a (by simp)) o)⟩

/-- What of a query answer is about `pk`. -/
theorem mem_query {X : Codecs} {G : Filters} {busy : Nat → Bool} {s : Store} {pk : Pubkey} {i : Nat}
    {g : Commitment → Option AccountData} {p : Pubkey} {fs : Option (List AccountFilterType)} {c : Commitment}
    {r : List AccountData} (h : Inv s) (hg : HeldAt s pk i g) (hr : getProgramAccounts X G busy s p fs c = .ok (.ok r))
    (b : AccountData) (hb : b.pubkey = pk) :
    b ∈ r ↔ owns s p i ∧ ∃ e x, s.accounts[i]? = some e ∧ gpaOne X e c p fs = .ok x ∧ b ∈ x := by
  rw [getProgramAccounts_eq] at hr
  split at hr
  · simp only [Run.bind_eq_ok, Run.pure_eq, Run.ok.injEq, Except.ok.injEq] at hr
    obtain ⟨r0, hr0, rfl⟩ := hr
    have hperm := filter_split_perm busy ((s.byOwner p).getD [])
    constructor
    · intro hbr
      obtain ⟨j, hj, e, x, he, hx, hbx⟩ := gpaPass_sound hr0 b hbr
      obtain ⟨-, a, hga, hsame, -⟩ := gpaOne_sound hx hbx
      obtain ⟨hidx, -⟩ := index_of_get h he hga
      rw [← hsame.pubkey, hb, hg.1] at hidx
      cases hidx
      exact ⟨hperm.mem_iff.1 hj, e, x, he, hx, hbx⟩
    · rintro ⟨ho, e, x, he, hx, hbx⟩
      exact gpaPass_mem hr0 (hperm.mem_iff.2 ho) he hx hbx
  · simp at hr

end LAM.Store
