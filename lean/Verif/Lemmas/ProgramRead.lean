import Verif.Lemmas.ProgramFeed
import Verif.Spec.ProgramRead
/-!
# Reads above the last finalized slot
-/
namespace LAM.Token
open Spec Props ProcStore Sim
open TokenStore (TOp)

variable {X : Codecs} {ws : List (Nat × Written)} {evs : List Event} {ops : List TOp} {pk : Pubkey} {par : Nat → Nat}

/-- A state above the confirmed slot is looked up by the highest slot alone. -/
theorem stream_processed {s : TokenStore} (hn : ops.length < 2 ^ 31) (hp : TrueParents par ops) (ha : Accepted X pk ops)
    (hr : TokenStore.run X ops .empty = .ok s) (ht : OnTime ops) :
    (∀ a k, Best (submittedAt ops pk k) a → (∀ i, k < i → submittedAt ops pk i = []) → confirmedOf ops < k → lastFinal ops < k →
      ∃ x, Taken X ops a x ∧ s.getAccount pk .processed = x.toSolana s.mints k 0) ∧
    ((∀ k, confirmedOf ops < k → lastFinal ops < k → submittedAt ops pk k = []) →
      s.getAccount pk .processed = s.getAccount pk .confirmed) := by
  have hrec : ∀ i, lastFinal ops < i → RecordedBy (Taken X ops) (submittedAt ops pk i) (stateAt s.processed i pk) :=
    fun i hi => stream_recorded ops hn hp ha hr hi
  have hco := (run_slots ops hn hp hr).2
  obtain ⟨-, -, h3, h4⟩ := C52_recorded X ops s pk (fun σ info c h => (hp σ info c h).2) hr
  obtain ⟨h1, h2, -, -⟩ := C52_recorded X ops s pk (fun σ info c h => (hp σ info c h).2) hr
  rw [hco] at h1 h2 h3 h4
  have hnone : ∀ i, lastFinal ops < i → submittedAt ops pk i = [] → stateAt s.processed i pk = none := by
    intro i hi he
    rcases hrec i hi with ⟨-, h⟩ | ⟨a, y, -, hb, -⟩
    · exact h
    · rw [he] at hb; obtain ⟨l1, l2, h, -⟩ := hb; simp at h
  constructor
  · intro a k hb hmax hc hk
    rcases hrec k hk with ⟨h, -⟩ | ⟨a', y, hy, hb', -, hx⟩
    · rw [h] at hb; obtain ⟨l1, l2, h, -⟩ := hb; simp at h
    · cases best_unique hb hb'
      refine ⟨y.account, hx, h3 y k (.inl ⟨hc, ?_, ?_⟩)⟩
      · unfold stateAt at hy
        cases he : BMap.find s.processed k with
        | none => simp [he] at hy
        | some e => exact ⟨e, rfl, by simpa [he] using hy⟩
      · intro k' e' hlt he'
        have := hnone k' (by omega) (hmax k' hlt)
        simpa [stateAt, he'] using this
  · intro hno
    have hclear : ∀ k' e', confirmedOf ops < k' → BMap.find s.processed k' = some e' → e'.accounts.find pk = none := by
      intro k' e' hlt he'
      have : stateAt s.processed k' pk = none := by
        by_cases hF : lastFinal ops < k'
        · exact hnone k' hF (hno k' hlt hF)
        · exact stream_cleared ops hn hp ht hr (by omega) pk
      simpa [stateAt, he'] using this
    by_cases hx : ∃ x k, NewestOn s.processed pk (confirmedOf ops) x k
    · obtain ⟨x, k, hx⟩ := hx
      rw [h1 x k hx, h3 x k (.inr ⟨hclear, hx⟩)]
    · rw [h2 (fun x k h => hx ⟨x, k, h⟩), h4 ?_]
      rintro x k (⟨hc, ⟨e, he, hx'⟩, -⟩ | ⟨-, h⟩)
      · rw [hclear k e hc he] at hx'; simp at hx'
      · exact hx ⟨x, k, h⟩

/-- No state on the chain is above the newest one. -/
theorem newest_top {i t k : Nat} {a : AccountData} (hd : ∀ i, par i ≤ i) (h : NewestTrue ops par pk t a k) (hi : Ancestor par t i)
    (hne : submittedAt ops pk i ≠ []) : i ≤ k := by
  induction h with
  | here hb => exact ancestor_le hd hi
  | @up t a k he _ ih =>
    cases hi with
    | here => exact absurd he hne
    | up hi => exact ih hi

/-- The newest state of a slot is the newest state of each slot between. -/
theorem newest_between {t c k : Nat} {a : AccountData} (hd : ∀ i, par i ≤ i) (h : NewestTrue ops par pk t a k) (hi : Ancestor par t c)
    (hk : k ≤ c) : NewestTrue ops par pk c a k := by
  induction h with
  | @here t a hb =>
    have := ancestor_le hd hi
    obtain rfl : c = t := by omega
    exact .here hb
  | @up t a k he hn ih =>
    cases hi with
    | here => exact .up he hn
    | up hi => exact ih hi hk

theorem newest_exists {t i : Nat} (hd : ∀ i, par i ≤ i) (hi : Ancestor par t i) (hne : submittedAt ops pk i ≠ []) :
    ∃ a k, NewestTrue ops par pk t a k ∧ i ≤ k := by
  induction hi with
  | @here s =>
    obtain ⟨a, ha⟩ := best_exists hne
    exact ⟨a, s, .here ha, Nat.le_refl _⟩
  | @up s k h ih =>
    by_cases he : submittedAt ops pk s = []
    · obtain ⟨a, k', h1, h2⟩ := ih hne
      exact ⟨a, k', .up he h1, h2⟩
    · obtain ⟨a, ha⟩ := best_exists he
      exact ⟨a, s, .here ha, ancestor_le hd (.up h)⟩

theorem newest_best {t k : Nat} {a : AccountData} (h : NewestTrue ops par pk t a k) : Best (submittedAt ops pk k) a := by
  induction h with
  | here hb => exact hb
  | up _ _ ih => exact ih

theorem ancestor_trans {i j k : Nat} (h1 : Ancestor par i j) (h2 : Ancestor par j k) : Ancestor par i k := by
  induction h1 with
  | here => exact h2
  | up _ ih => exact .up (ih h2)

/-- What is to be shown as of a slot is shown, if reads find the newest state on its chain. -/
theorem feed_at {s : TokenStore} {d : Option (Pubkey × Bytes)} {tip slot : Nat} {c : Commitment} (hc : Consistent (tokenOwned (ws.map (·.2))))
    (hs : StreamRespects X ws evs) (hk : TokenKey ws evs pk) (hio : InOrder X par evs pk) (hi : Interleaved (archived ws) (streamed evs) ops)
    (hn : ops.length < 2 ^ 31) (hr : TokenStore.run X ops .empty = .ok s)
    (hl : (∀ a k, NewestTrue (streamed evs) par pk tip a k → k ≤ lastFinal (streamed evs)) →
      (∃ a k, NewestTrue (streamed evs) par pk (lastFinal (streamed evs)) a k) →
      (∃ w ∈ tokenOwned (ws.map (·.2)), w.pubkey = pk) → LoadedFirst pk ops)
    (h1 : ∀ a k, NewestTrue (streamed evs) par pk tip a k → lastFinal (streamed evs) < k →
      ∃ x, Taken X ops a x ∧ s.getAccount pk c = x.toSolana s.mints k 0)
    (h2 : (∀ a k, NewestTrue (streamed evs) par pk tip a k → k ≤ lastFinal (streamed evs)) →
      s.getAccount pk c = s.getAccount pk .finalized)
    (hd : CurrentAt ws evs par pk tip slot d) :
    (d = none → s.getAccount pk c = .ok none) ∧
    ∀ owner bs, d = some (owner, bs) → ∃ r bs' sa sa', s.getAccount pk c = .ok (some r) ∧ r.pubkey = pk ∧
      r.slot = slot ∧ r.account.owner = owner ∧ HonestData X r.account.data bs' ∧
      AccountLayout bs sa ∧ AccountLayout bs' sa' ∧ SameToken sa sa' := by
  cases hd with
  | @«open» a _ bs hnew hlt h0 hb =>
    refine ⟨by simp, ?_⟩
    rintro owner bs1 e
    simp only [Option.some.injEq, Prod.mk.injEq] at e
    obtain ⟨rfl, rfl⟩ := e
    obtain ⟨x, hx, hg⟩ := h1 a slot hnew hlt
    obtain ⟨c', hm, hak, -⟩ := newest_mem_ops hnew
    subst hak
    obtain ⟨g1, g2⟩ := hk.stream a c' hm rfl
    rcases g2 with g2 | ⟨bs2, sa, hb2, hlay⟩
    · exact absurd g2 h0
    rw [hb] at hb2; cases hb2
    obtain ⟨p, hpo⟩ := owned_iff h0 g1
    have hdat : HonestData X a.account.data bs := by rw [hb]; exact ⟨rfl, rfl⟩
    obtain ⟨⟨bs3, hd3, hm3⟩, -⟩ := hs a c' hm
    have : bs3 = bs := by
      have e1 := hd3.1; have e2 := hdat.1
      rw [e1] at e2; cases e2; rfl
    subst this
    have hmint := (hm3 sa hlay).1
    have hopen : ∀ o ∈ ops, ∀ b, submittedBy o = some b → b.pubkey = sa.mint → ¬ Closes b := by
      rintro o ho b hb e
      exact closed_not_mint (feed_respects hc hs hi ho hb) (by rw [e]; exact hmint)
    obtain ⟨r, bs', sa', e1, e2, e3, e4, e5, e6, e7⟩ := taken_read hn hr hx hpo hdat hlay (feed_known hc hs hi hn hr hmint) hopen slot
    exact ⟨r, bs', sa, sa', by rw [hg]; exact e1, e2, e3, e4, e5, hlay, e6, e7⟩
  | @closed a _ hnew hlt h0 =>
    refine ⟨fun _ => ?_, by simp⟩
    obtain ⟨x, hx, h⟩ := h1 a slot hnew hlt
    obtain ⟨-, -, -, s0, s0', -, -, -, -, hcl⟩ := hx
    rw [classify_deleted X _ (.inl h0)] at hcl
    simp only [Run.ok.injEq, Prod.mk.injEq, Option.some.injEq] at hcl
    rw [h, ← hcl.1]
    rfl
  | final hle hcur =>
    rw [h2 hle]
    exact feed_read hc hs hk hio hi hn hr (hl hle) hcur

/-- Confirmed reads find the newest state on the chain of the confirmed slot, if the links are noted. -/
theorem feed_confirmed {s : TokenStore} (hacc : Accepted X pk ops) (hio : InOrder X par evs pk)
    (hi : Interleaved (archived ws) (streamed evs) ops) (hn : ops.length < 2 ^ 31) (hr : TokenStore.run X ops .empty = .ok s) :
    (∀ a k, NewestTrue (streamed evs) par pk (confirmedOf (streamed evs)) a k → lastFinal (streamed evs) < k →
      (∀ i, Ancestor par (confirmedOf (streamed evs)) i → Ancestor par i k → i ≠ k → LinkNoted X (streamed evs) i) →
      ∃ x, Taken X ops a x ∧ s.getAccount pk .confirmed = x.toSolana s.mints k 0) ∧
    ((∀ a k, NewestTrue (streamed evs) par pk (confirmedOf (streamed evs)) a k → k ≤ lastFinal (streamed evs)) →
      s.getAccount pk .confirmed = s.getAccount pk .finalized) := by
  have hf := feed_filter hi
  have hp : TrueParents par ops := parents_filter (by rw [hf]; exact hio.parents)
  have ht : OnTime ops := onTime_filter (by rw [hf]; exact hio.onTime)
  have hlf : lastFinal (streamed evs) = lastFinal ops := by rw [← hf, lastFinal_filter]
  have hcf : confirmedOf (streamed evs) = confirmedOf ops := by rw [← hf, confirmedOf_filter]
  have hnw : ∀ t a k, NewestTrue (streamed evs) par pk t a k ↔ NewestTrue ops par pk t a k := by
    intro t a k; rw [← hf]; exact newest_filter hio.older
  obtain ⟨h1, h2⟩ := C52_stream_partial X ops s par pk hn hio.older hp hacc hr ht
  constructor
  · intro a k hnew hlt hln
    rw [hcf] at hnew hln
    exact h1 a k ((hnw _ a k).1 hnew) (by rw [← hlf]; exact hlt) (fun i g1 g2 g3 =>
      linkNoted_filter (by rw [hf]; exact hln i g1 g2 g3))
  · intro hle
    refine h2 (fun a k h => ?_)
    rw [← hlf]
    exact hle a k (by rw [hcf]; exact (hnw _ a k).2 h)

/-- Processed reads find the newest state on the chain of the slot `tip`, if the states above the confirmed slot are on it. -/
theorem feed_processed {s : TokenStore} {tip : Nat} (hacc : Accepted X pk ops) (hio : InOrder X par evs pk)
    (hi : Interleaved (archived ws) (streamed evs) ops) (hn : ops.length < 2 ^ 31) (hr : TokenStore.run X ops .empty = .ok s)
    (htip : ∀ k, confirmedOf (streamed evs) < k → lastFinal (streamed evs) < k → submittedAt (streamed evs) pk k ≠ [] → Ancestor par tip k)
    (hcon : Ancestor par tip (confirmedOf (streamed evs))) :
    (∀ a k, NewestTrue (streamed evs) par pk tip a k → lastFinal (streamed evs) < k →
      (∀ i, Ancestor par (confirmedOf (streamed evs)) i → Ancestor par i k → i ≠ k → LinkNoted X (streamed evs) i) →
      ∃ x, Taken X ops a x ∧ s.getAccount pk .processed = x.toSolana s.mints k 0) ∧
    ((∀ a k, NewestTrue (streamed evs) par pk tip a k → k ≤ lastFinal (streamed evs)) →
      s.getAccount pk .processed = s.getAccount pk .finalized) := by
  obtain ⟨c1, c2⟩ := feed_confirmed hacc hio hi hn hr
  have hf := feed_filter hi
  have hp : TrueParents par ops := parents_filter (by rw [hf]; exact hio.parents)
  have ht : OnTime ops := onTime_filter (by rw [hf]; exact hio.onTime)
  obtain ⟨p1, p2⟩ := stream_processed hn hp hacc hr ht
  have hsub : ∀ i, submittedAt (streamed evs) pk i = submittedAt ops pk i := by intro i; rw [← hf, submittedAt_filter]
  rw [← lastFinal_filter, ← confirmedOf_filter, hf] at p1 p2
  simp only [← hsub] at p1 p2
  constructor
  · intro a k hnew hlt hln
    have hbest : ∀ i, confirmedOf (streamed evs) < i → lastFinal (streamed evs) < i → submittedAt (streamed evs) pk i ≠ [] → i ≤ k :=
      fun i g1 g2 g3 => newest_top hio.older hnew (htip i g1 g2 g3) g3
    by_cases hkc : confirmedOf (streamed evs) < k
    · refine p1 a k (newest_best hnew) ?_ hkc hlt
      intro i hik
      by_contra hne
      have := hbest i (by omega) (by omega) hne
      omega
    · rw [p2 ?_]
      · exact c1 a k (newest_between hio.older hnew hcon (by omega)) hlt hln
      · intro i g1 g2
        by_contra hne
        have := hbest i g1 g2 hne
        omega
  · intro hle
    rw [p2 ?_]
    · refine c2 (fun a k h => ?_)
      have hne := newest_submitted h
      obtain ⟨a', k', g1, g2⟩ := newest_exists hio.older (ancestor_trans hcon (ancestor_of_newest h)) hne
      have := hle a' k' g1
      omega
    · intro i g1 g2
      by_contra hne
      obtain ⟨a', k', g3, g4⟩ := newest_exists hio.older (htip i g1 g2 hne) hne
      have := hle a' k' g3
      omega

end LAM.Token
