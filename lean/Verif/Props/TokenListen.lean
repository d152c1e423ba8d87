import Verif.Lemmas.TokenListenRun
import Verif.Props.TokenStream
/-!
# The token program store: what a listener to slot notifications knows: C131
-/
namespace LAM.Props
open Spec Token
open TokenStore (TOp)

/-- **C131**, the full claim: who has read a token account once and is handed the answers to the slot notifications of that
commitment knows what a read shows, for a stream that respects the confirmed chain. -/
def C131_statement (c : Commitment) : Prop :=
  ∀ (X : Codecs) (par : Nat → Nat) (pk : Pubkey) (h h3 : List TOp) (s s3 : TokenStore) (v v3 : TokenHeard) (r : Option AccountData),
    (h ++ h3).length < 2 ^ 31 → (∀ i, par i ≤ i) → TrueParents par (h ++ h3) → OnTime (h ++ h3) → OnlyToken X pk (h ++ h3) →
    NoTwinClosed X pk (h ++ h3) → MintsStay X (h ++ h3) → NothingAtOnce pk h3 → ChainRespected X par pk h h3 →
    ConfirmedInTurn X h h3 → TokenStore.run X h .empty = .ok s → s.getAccount pk c = .ok r → v pk = r.map (·.account) →
    tokenListen X c s v h3 = .ok (s3, v3) → ∃ r, s3.getAccount pk c = .ok r ∧ v3 pk = r.map (·.account)

/-- **C131** for finalized slots and a token account that is never closed. -/
theorem C131_finalized_partial (X : Codecs) (par : Nat → Nat) (pk : Pubkey) (h h3 : List TOp) (s s3 : TokenStore)
    (v v3 : TokenHeard) (r : Option AccountData) (hn : (h ++ h3).length < 2 ^ 31) (hd : ∀ i, par i ≤ i)
    (hp : TrueParents par (h ++ h3)) (ho : OnlyToken X pk (h ++ h3)) (hw : NoTwinClosed X pk (h ++ h3))
    (hm : MintsStay X (h ++ h3)) (ha : NothingAtOnce pk h3) (hc : NeverClosed X pk (h ++ h3))
    (hr : TokenStore.run X h .empty = .ok s) (hg : s.getAccount pk .finalized = .ok r) (hv : v pk = r.map (·.account))
    (hl : tokenListen X .finalized s v h3 = .ok (s3, v3)) :
    ∃ r, s3.getAccount pk .finalized = .ok r ∧ v3 pk = r.map (·.account) := by
  have H : Listen.Conds X par pk .finalized h h3 := ⟨hn, hd, hp, ho, hc, hw, hm, ha, by simp⟩
  obtain ⟨g, q, h1, h2⟩ := Listen.listen_run (by simp) h3 H hr hl (Listen.knows_of_read (H.good hr) (by simp) hg hv)
  exact Listen.read_of_knows g (by simp) h1 h2

/-- **C131** for confirmed slots and a token account that is never closed. -/
theorem C131_confirmed_partial (X : Codecs) (par : Nat → Nat) (pk : Pubkey) (h h3 : List TOp) (s s3 : TokenStore)
    (v v3 : TokenHeard) (r : Option AccountData) (hn : (h ++ h3).length < 2 ^ 31) (hd : ∀ i, par i ≤ i)
    (hp : TrueParents par (h ++ h3)) (ht : OnTime (h ++ h3)) (ho : OnlyToken X pk (h ++ h3)) (hw : NoTwinClosed X pk (h ++ h3))
    (hm : MintsStay X (h ++ h3)) (ha : NothingAtOnce pk h3) (hc : NeverClosed X pk (h ++ h3))
    (hch : ChainRespected X par pk h h3) (htu : ConfirmedInTurn X h h3)
    (hr : TokenStore.run X h .empty = .ok s) (hg : s.getAccount pk .confirmed = .ok r) (hv : v pk = r.map (·.account))
    (hl : tokenListen X .confirmed s v h3 = .ok (s3, v3)) :
    ∃ r, s3.getAccount pk .confirmed = .ok r ∧ v3 pk = r.map (·.account) := by
  have H : Listen.Conds X par pk .confirmed h h3 := ⟨hn, hd, hp, ho, hc, hw, hm, ha, fun _ => ⟨ht, hch, htu⟩⟩
  obtain ⟨g, q, h1, h2⟩ := Listen.listen_run (by simp) h3 H hr hl (Listen.knows_of_read (H.good hr) (by simp) hg hv)
  exact Listen.read_of_knows g (by simp) h1 h2

/-- **C131**, the claim for confirmed slots that are confirmed through their descendants, of which only the last one is
notified. -/
def C131_skipping_statement : Prop :=
  ∀ (X : Codecs) (par : Nat → Nat) (pk : Pubkey) (h h3 : List TOp) (s s3 : TokenStore) (v v3 : TokenHeard) (r : Option AccountData),
    (h ++ h3).length < 2 ^ 31 → (∀ i, par i ≤ i) → TrueParents par (h ++ h3) → OnTime (h ++ h3) → OnlyToken X pk (h ++ h3) →
    NoTwinClosed X pk (h ++ h3) → MintsStay X (h ++ h3) → NothingAtOnce pk h3 → NeverClosed X pk (h ++ h3) →
    ChainRespected X par pk h h3 → ConfirmedAlong X par h h3 → TokenStore.run X h .empty = .ok s →
    s.getAccount pk .confirmed = .ok r → v pk = r.map (·.account) →
    tokenListen X .confirmed s v h3 = .ok (s3, v3) → ∃ r, s3.getAccount pk .confirmed = .ok r ∧ v3 pk = r.map (·.account)

/-! ## Concrete histories -/

theorem classify_closedAcct (T : MintTable) (pk : Pubkey) (slot wv : Nat) :
    classify Toy.codecs T (closedAcct pk slot wv) = .ok (some (.deleted pk), T) := by
  unfold classify; rw [if_pos (.inl rfl)]; rfl

/-- The accounts of the histories below. -/
def Ours (closed : Bool) (ops : List TOp) : Prop :=
  ∀ o ∈ ops, ∀ a, submittedBy o = some a → a = mintAcct ∨ (∃ slot, a = otherAcct slot 1) ∨ (∃ pk slot, a = tokenAcct pk slot 1) ∨
    (closed = true ∧ ∃ slot, a = closedAcct Toy.alice slot 1)

theorem ours_only {closed : Bool} {ops : List TOp} (h : Ours closed ops) : OnlyToken Toy.codecs Toy.alice ops := by
  intro o ho a ha T x T' hcl
  rcases h o ho a ha with rfl | ⟨slot, rfl⟩ | ⟨pk, slot, rfl⟩ | ⟨-, slot, rfl⟩
  · rw [classify_mintAcct] at hcl; cases hcl
    exact ⟨fun h => absurd h (by decide +kernel), id⟩
  · rw [classify_otherAcct] at hcl; cases hcl
    exact ⟨fun _ y hy => by cases hy; exact .inl ⟨_, rfl⟩, fun h => by rw [getOrCreate_other _ (by decide)]; exact h⟩
  · rw [classify_tokenAcct] at hcl; cases hcl
    exact ⟨fun _ y hy => by cases hy; exact .inl ⟨_, rfl⟩, fun h => by rw [getOrCreate_other _ (by decide)]; exact h⟩
  · rw [classify_closedAcct] at hcl; cases hcl
    exact ⟨fun _ y hy => by cases hy; exact .inr rfl, id⟩

/-- Only `alice` is closed. -/
theorem ours_closed {closed : Bool} {ops : List TOp} (h : Ours closed ops) {o : TOp} (ho : o ∈ ops) {a : AccountData}
    (ha : submittedBy o = some a) {p : Pubkey} {T T' : MintTable} (hcl : classify Toy.codecs T a = .ok (some (.deleted p), T')) :
    closed = true ∧ a.pubkey = Toy.alice := by
  rcases h o ho a ha with rfl | ⟨slot, rfl⟩ | ⟨pk, slot, rfl⟩ | ⟨e, slot, rfl⟩
  · rw [classify_mintAcct] at hcl; simp at hcl
  · rw [classify_otherAcct] at hcl; simp at hcl
  · rw [classify_tokenAcct] at hcl; simp at hcl
  · exact ⟨e, rfl⟩

theorem ours_twins {closed : Bool} {ops : List TOp} (h : Ours closed ops) : NoTwinClosed Toy.codecs Toy.alice ops :=
  fun _ ho _ ha hne _ _ _ hcl => hne (ours_closed h ho ha hcl).2

theorem ours_never {ops : List TOp} (h : Ours false ops) : NeverClosed Toy.codecs Toy.alice ops := by
  intro o ho a ha _ T T' hcl
  exact absurd (ours_closed h ho ha hcl).1 (by simp)

theorem ours_mints {closed : Bool} {ops : List TOp} (h : Ours closed ops) (hn : ops.length < 2 ^ 31) : MintsStay Toy.codecs ops := by
  intro pre s hp hr i m hm o ho a ha he T T' hcl
  obtain ⟨post, rfl⟩ := hp
  have hlen : pre.length < 2 ^ 31 := by simp at hn; omega
  obtain ⟨-, hi, -⟩ := stream_only (pk := Toy.alice) pre hlen (fun o ho => ours_only h o (by simp [ho])) hr
  obtain ⟨slots, orig, inv⟩ := reach_inv hlen hr
  have := inv.fin.mints_idx i m hm
  rw [← he, (ours_closed h ho ha hcl).2, hi] at this
  simp at this

/-- A mint and the token account of `alice` are loaded; slot 2 is confirmed. -/
def heardBefore : List TOp := [.init mintAcct, .init (otherAcct 1 1), .slot plainOrders ⟨2, 1, 0⟩ .confirmed]

/-- Slot 3 changes `alice`, slot 4 changes `bob`; both are confirmed, and slot 3 is finalized. -/
def heard : List TOp := [.update (tokenAcct Toy.alice 3 1) .processed, .slot plainOrders ⟨3, 2, 0⟩ .confirmed,
  .update (tokenAcct Toy.bob 4 1) .processed, .slot plainOrders ⟨4, 3, 0⟩ .confirmed, .slot plainOrders ⟨3, 2, 0⟩ .finalized]

/-- Slot 3 closes `alice`; it is confirmed and finalized. -/
def heardClosing : List TOp := [.update (closedAcct Toy.alice 3 1) .processed, .slot plainOrders ⟨3, 2, 0⟩ .confirmed,
  .slot plainOrders ⟨3, 2, 0⟩ .finalized]

/-- Slot 3 changes `alice`, slot 4 changes `bob`; slot 4 is confirmed. -/
def heardSkipping : List TOp := [.update (tokenAcct Toy.alice 3 1) .processed, .slot plainOrders ⟨3, 2, 0⟩ .processed,
  .update (tokenAcct Toy.bob 4 1) .processed, .slot plainOrders ⟨4, 3, 0⟩ .processed, .slot plainOrders ⟨4, 3, 0⟩ .confirmed]

theorem heard_ours : Ours false (heardBefore ++ heard) := by
  intro o ho a ha
  simp only [heardBefore, heard, List.mem_cons, List.cons_append, List.nil_append, List.not_mem_nil, or_false] at ho
  rcases ho with rfl | rfl | rfl | rfl | rfl | rfl | rfl | rfl <;> cases ha
  all_goals first | exact .inl rfl | exact .inr (.inl ⟨_, rfl⟩) | exact .inr (.inr (.inl ⟨_, _, rfl⟩))

theorem heardClosing_ours : Ours true (heardBefore ++ heardClosing) := by
  intro o ho a ha
  simp only [heardBefore, heardClosing, List.mem_cons, List.cons_append, List.nil_append, List.not_mem_nil, or_false] at ho
  rcases ho with rfl | rfl | rfl | rfl | rfl | rfl <;> cases ha
  all_goals first | exact .inl rfl | exact .inr (.inl ⟨_, rfl⟩) | exact .inr (.inr (.inr ⟨rfl, _, rfl⟩))

theorem heardSkipping_ours : Ours false (heardBefore ++ heardSkipping) := by
  intro o ho a ha
  simp only [heardBefore, heardSkipping, List.mem_cons, List.cons_append, List.nil_append, List.not_mem_nil, or_false] at ho
  rcases ho with rfl | rfl | rfl | rfl | rfl | rfl | rfl | rfl <;> cases ha
  all_goals first | exact .inl rfl | exact .inr (.inl ⟨_, rfl⟩) | exact .inr (.inr (.inl ⟨_, _, rfl⟩))

/-- Parents are the slots before. -/
def parentsB (ops : List TOp) : Bool :=
  ops.all fun o => match o with | .slot _ info _ => info.parent + 1 == info.slot | _ => true

theorem parents_ofB {ops : List TOp} (h : parentsB ops = true) : TrueParents before ops := by
  intro σ info c hm
  have := List.all_eq_true.1 h _ hm
  simp at this
  simp only [before]; omega

/-- A condition on a submission or notification and the calls before it, checked call by call. -/
def eachCall (P : List TOp → TOp → Bool) (pre : List TOp) : List TOp → Bool
  | [] => true
  | o :: ops => P pre o && eachCall P (pre ++ [o]) ops

theorem eachCall_sound {P : List TOp → TOp → Bool} : ∀ {h3 h : List TOp}, eachCall P h h3 = true →
    ∀ pre o post, h3 = pre ++ o :: post → P (h ++ pre) o = true := by
  intro h3
  induction h3 with
  | nil => intro h _ pre o post e; simp at e
  | cons x h3 ih =>
    intro h hc pre o post e
    simp only [eachCall, Bool.and_eq_true] at hc
    cases pre with
    | nil => simp at e; rw [← e.1]; simpa using hc.1
    | cons y pre =>
      simp at e
      have := ih hc.2 pre o post e.2
      rw [e.1] at this
      simpa using this

theorem onTime_ofB {ops : List TOp} (h : eachCall (fun pre o => match o with
    | .update a _ => decide (lastFinal pre < a.slot) | _ => true) [] ops = true) : OnTime ops := by
  intro pre a c post e _
  have := eachCall_sound h pre _ post e
  simpa using this

theorem atOnce_ofB {pk : Pubkey} {ops : List TOp} (h : (ops.all fun o => match o with
    | .update _ .finalized => false | .init _ => false | _ => true) = true) : NothingAtOnce pk ops := by
  intro o ho hat
  have := List.all_eq_true.1 h o ho
  cases o with
  | update a c => simp [AtOnce] at hat; subst hat; simp at this
  | init a => simp at this
  | slot σ info c => simp [AtOnce] at hat

theorem above_confirmed {ops : List TOp} {k n : Nat} (hn : confirmedOf ops = n) (h : n < k) : ¬ Ancestor before (confirmedOf ops) k := by
  intro ha
  have := ancestor_before ha
  omega

/-- New states and links are above the confirmed slot. -/
theorem respected_ofB {X : Codecs} {pk : Pubkey} {h h3 : List TOp} (hb : eachCall (fun pre o => match o with
    | .update a _ => decide (confirmedOf pre < a.slot) | .slot _ info .processed => decide (confirmedOf pre < info.slot)
    | _ => true) h h3 = true)
    (hf : ∀ pre σ info post, h3 = pre ++ TOp.slot σ info .finalized :: post →
      Ancestor before (confirmedOf (h ++ pre)) info.slot ∧
      ∀ i, Ancestor before (confirmedOf (h ++ pre)) i → info.slot ≤ i → lastFinal (h ++ pre) < i → LinkNoted X (h ++ pre) i) :
    ChainRespected X before pk h h3 := by
  refine ⟨?_, ?_, hf⟩
  · intro pre a d post e _
    have := eachCall_sound hb pre _ post e
    exact above_confirmed rfl (by simpa using this)
  · intro pre σ info post e
    have := eachCall_sound hb pre _ post e
    exact above_confirmed rfl (by simpa using this)

theorem known_token {pre : List TOp} {pk : Pubkey} {k : Nat} (h : TOp.update (tokenAcct pk k 1) .processed ∈ pre) :
    Known Toy.codecs pre k := .inr ⟨_, _, h, by simp, rfl, parses_tokenAcct _ _ _⟩

theorem known_closed {pre : List TOp} {k : Nat} (h : TOp.update (closedAcct Toy.alice k 1) .processed ∈ pre) :
    Known Toy.codecs pre k := .inr ⟨_, _, h, by simp, rfl, .inl rfl, fun T => ⟨_, _, classify_closedAcct T _ _ _⟩⟩

theorem heard_respected : ChainRespected Toy.codecs before Toy.alice heardBefore heard := by
  refine respected_ofB (by decide +kernel) ?_
  intro pre σ info post e
  refine every_call (ops := heard) (P := fun pre o => ∀ σ info, o = .slot σ info .finalized →
    Ancestor before (confirmedOf (heardBefore ++ pre)) info.slot ∧ ∀ i, Ancestor before (confirmedOf (heardBefore ++ pre)) i → info.slot ≤ i →
      lastFinal (heardBefore ++ pre) < i → LinkNoted Toy.codecs (heardBefore ++ pre) i) ?_ pre _ post e σ info rfl
  intro n hn σ info
  match n, hn with
  | 0, _ | 1, _ | 2, _ | 3, _ => intro h; cases h
  | 4, _ =>
    intro h; cases h
    have hC : confirmedOf (heardBefore ++ heard.take 4) = 4 := by decide +kernel
    rw [hC]
    refine ⟨.up .here, fun i h1 h2 _ => ?_⟩
    have := ancestor_before h1
    simp only at h2
    have : i = 3 ∨ i = 4 := by omega
    rcases this with rfl | rfl
    · exact ⟨heardBefore ++ heard.take 1, _, _, _, (heard.take 4).drop 2, rfl, rfl, known_token (pk := Toy.alice) (by simp [heard]),
        .inr ⟨rfl, by decide +kernel⟩⟩
    · exact ⟨heardBefore ++ heard.take 3, _, _, _, [], rfl, rfl, known_token (pk := Toy.bob) (by simp [heard]),
        .inr ⟨rfl, by decide +kernel⟩⟩

theorem heard_turn : ConfirmedInTurn Toy.codecs heardBefore heard := by
  intro pre σ info post e
  refine every_call (ops := heard) (P := fun pre o => ∀ σ info, o = .slot σ info .confirmed →
    confirmedOf (heardBefore ++ pre) < info.slot ∧ info.parent = confirmedOf (heardBefore ++ pre) ∧
      lastFinal (heardBefore ++ pre) < info.slot ∧ Known Toy.codecs (heardBefore ++ pre) info.slot) ?_ pre _ post e σ info rfl
  intro n hn σ info
  match n, hn with
  | 0, _ | 2, _ | 4, _ => intro h; cases h
  | 1, _ =>
    intro h; cases h
    exact ⟨by decide +kernel, by decide +kernel, by decide +kernel, known_token (pk := Toy.alice) (by simp [heard])⟩
  | 3, _ =>
    intro h; cases h
    exact ⟨by decide +kernel, by decide +kernel, by decide +kernel, known_token (pk := Toy.bob) (by simp [heard])⟩

theorem heardClosing_respected : ChainRespected Toy.codecs before Toy.alice heardBefore heardClosing := by
  refine respected_ofB (by decide +kernel) ?_
  intro pre σ info post e
  refine every_call (ops := heardClosing) (P := fun pre o => ∀ σ info, o = .slot σ info .finalized →
    Ancestor before (confirmedOf (heardBefore ++ pre)) info.slot ∧ ∀ i, Ancestor before (confirmedOf (heardBefore ++ pre)) i → info.slot ≤ i →
      lastFinal (heardBefore ++ pre) < i → LinkNoted Toy.codecs (heardBefore ++ pre) i) ?_ pre _ post e σ info rfl
  intro n hn σ info
  match n, hn with
  | 0, _ | 1, _ => intro h; cases h
  | 2, _ =>
    intro h; cases h
    have hC : confirmedOf (heardBefore ++ heardClosing.take 2) = 3 := by decide +kernel
    rw [hC]
    refine ⟨.here, fun i h1 h2 _ => ?_⟩
    have := ancestor_before h1
    simp only at h2
    have : i = 3 := by omega
    subst this
    exact ⟨heardBefore ++ heardClosing.take 1, _, _, _, [], rfl, rfl, known_closed (by simp [heardClosing]), .inr ⟨rfl, by decide +kernel⟩⟩

theorem heardClosing_turn : ConfirmedInTurn Toy.codecs heardBefore heardClosing := by
  intro pre σ info post e
  refine every_call (ops := heardClosing) (P := fun pre o => ∀ σ info, o = .slot σ info .confirmed →
    confirmedOf (heardBefore ++ pre) < info.slot ∧ info.parent = confirmedOf (heardBefore ++ pre) ∧
      lastFinal (heardBefore ++ pre) < info.slot ∧ Known Toy.codecs (heardBefore ++ pre) info.slot) ?_ pre _ post e σ info rfl
  intro n hn σ info
  match n, hn with
  | 0, _ | 2, _ => intro h; cases h
  | 1, _ =>
    intro h; cases h
    exact ⟨by decide +kernel, by decide +kernel, by decide +kernel, known_closed (by simp [heardClosing])⟩

theorem heardSkipping_along : ConfirmedAlong Toy.codecs before heardBefore heardSkipping := by
  intro pre σ info post e
  refine every_call (ops := heardSkipping) (P := fun pre o => ∀ σ info, o = .slot σ info .confirmed →
    confirmedOf (heardBefore ++ pre) < info.slot ∧ Ancestor before info.slot (confirmedOf (heardBefore ++ pre)) ∧
      lastFinal (heardBefore ++ pre) < info.slot ∧
      ∀ i, Ancestor before info.slot i → confirmedOf (heardBefore ++ pre) < i → LinkNoted Toy.codecs (heardBefore ++ pre) i) ?_
    pre _ post e σ info rfl
  intro n hn σ info
  match n, hn with
  | 0, _ | 1, _ | 2, _ | 3, _ => intro h; cases h
  | 4, _ =>
    intro h; cases h
    have hC : confirmedOf (heardBefore ++ heardSkipping.take 4) = 2 := by decide +kernel
    rw [hC]
    refine ⟨by decide, .up (.up .here), by decide +kernel, fun i h1 h2 => ?_⟩
    have := ancestor_before h1
    simp only at this
    have : i = 3 ∨ i = 4 := by omega
    rcases this with rfl | rfl
    · exact ⟨heardBefore ++ heardSkipping.take 1, _, _, _, (heardSkipping.take 4).drop 2, rfl, rfl,
        known_token (pk := Toy.alice) (by simp [heardSkipping]), .inl rfl⟩
    · exact ⟨heardBefore ++ heardSkipping.take 3, _, _, _, [], rfl, rfl,
        known_token (pk := Toy.bob) (by simp [heardSkipping]), .inl rfl⟩

/-- The store before, and what a reader of `alice` knows. -/
def heardStore : TokenStore := okStore (TokenStore.run Toy.codecs heardBefore .empty)
def heardRead : Option AccountData := match heardStore.getAccount Toy.alice .finalized with | .ok r => r | _ => none
def heardAccount : TokenHeard := fun _ => heardRead.map (·.account)

def listened (r : Run (TokenStore × TokenHeard)) : TokenStore × TokenHeard := match r with | .ok p => p | _ => (.empty, fun _ => none)

theorem listened_eq {r : Run (TokenStore × TokenHeard)} (h : (match r with | .ok _ => true | _ => false) = true) : 
    r = .ok ((listened r).1, (listened r).2) := by
  cases r <;> simp_all [listened]

theorem heardStore_run : TokenStore.run Toy.codecs heardBefore .empty = .ok heardStore := by decide +kernel

example : ∃ r, (listened (tokenListen Toy.codecs .confirmed heardStore heardAccount heard)).1.getAccount Toy.alice .confirmed = .ok r ∧
    (listened (tokenListen Toy.codecs .confirmed heardStore heardAccount heard)).2 Toy.alice = r.map (·.account) :=
  C131_confirmed_partial Toy.codecs before Toy.alice heardBefore heard heardStore _ heardAccount _ heardRead (by decide) before_le
    (parents_ofB (by decide +kernel)) (onTime_ofB (by decide +kernel)) (ours_only heard_ours) (ours_twins heard_ours)
    (ours_mints heard_ours (by decide)) (atOnce_ofB (by decide +kernel)) (ours_never heard_ours) heard_respected heard_turn
    heardStore_run (by decide +kernel) rfl (listened_eq (by decide +kernel))

example : ∃ r, (listened (tokenListen Toy.codecs .finalized heardStore heardAccount heard)).1.getAccount Toy.alice .finalized = .ok r ∧
    (listened (tokenListen Toy.codecs .finalized heardStore heardAccount heard)).2 Toy.alice = r.map (·.account) :=
  C131_finalized_partial Toy.codecs before Toy.alice heardBefore heard heardStore _ heardAccount _ heardRead (by decide) before_le
    (parents_ofB (by decide +kernel)) (ours_only heard_ours) (ours_twins heard_ours)
    (ours_mints heard_ours (by decide)) (atOnce_ofB (by decide +kernel)) (ours_never heard_ours)
    heardStore_run (by decide +kernel) rfl (listened_eq (by decide +kernel))

/-- What the listeners know changes. -/
example : (listened (tokenListen Toy.codecs .confirmed heardStore heardAccount heard)).2 Toy.alice ≠ heardAccount Toy.alice ∧
    (listened (tokenListen Toy.codecs .finalized heardStore heardAccount heard)).2 Toy.alice ≠ heardAccount Toy.alice ∧
    (listened (tokenListen Toy.codecs .finalized heardStore heardAccount heard)).2 Toy.alice ≠ none := by decide +kernel

/-- The claim is false: that a token account is closed is not reported, … -/
theorem C131_refuted (c : Commitment) (hc : c ≠ .processed) : ¬ C131_statement c := by
  intro h
  have := fun hg hl => h Toy.codecs before Toy.alice heardBefore heardClosing heardStore
    (listened (tokenListen Toy.codecs c heardStore heardAccount heardClosing)).1 heardAccount
    (listened (tokenListen Toy.codecs c heardStore heardAccount heardClosing)).2 heardRead (by decide) before_le
    (parents_ofB (by decide +kernel)) (onTime_ofB (by decide +kernel)) (ours_only heardClosing_ours) (ours_twins heardClosing_ours)
    (ours_mints heardClosing_ours (by decide)) (atOnce_ofB (by decide +kernel)) heardClosing_respected heardClosing_turn
    heardStore_run hg rfl hl
  cases c with
  | processed => exact hc rfl
  | confirmed =>
    obtain ⟨r, h1, h2⟩ := this (by decide +kernel) (listened_eq (by decide +kernel))
    have e : (listened (tokenListen Toy.codecs .confirmed heardStore heardAccount heardClosing)).1.getAccount Toy.alice .confirmed = .ok none := by
      decide +kernel
    rw [e] at h1; cases h1
    exact absurd h2 (by decide +kernel)
  | finalized =>
    obtain ⟨r, h1, h2⟩ := this (by decide +kernel) (listened_eq (by decide +kernel))
    have e : (listened (tokenListen Toy.codecs .finalized heardStore heardAccount heardClosing)).1.getAccount Toy.alice .finalized = .ok none := by
      decide +kernel
    rw [e] at h1; cases h1
    exact absurd h2 (by decide +kernel)

/-- … and nor is a state whose slot is confirmed through a descendant. -/
theorem C131_skipping_refuted : ¬ C131_skipping_statement := by
  intro h
  obtain ⟨r, h1, h2⟩ := h Toy.codecs before Toy.alice heardBefore heardSkipping heardStore
    (listened (tokenListen Toy.codecs .confirmed heardStore heardAccount heardSkipping)).1 heardAccount
    (listened (tokenListen Toy.codecs .confirmed heardStore heardAccount heardSkipping)).2 heardRead (by decide) before_le
    (parents_ofB (by decide +kernel)) (onTime_ofB (by decide +kernel)) (ours_only heardSkipping_ours) (ours_twins heardSkipping_ours)
    (ours_mints heardSkipping_ours (by decide)) (atOnce_ofB (by decide +kernel)) (ours_never heardSkipping_ours)
    (respected_ofB (by decide +kernel) (by
      intro pre σ info post e
      refine every_call (ops := heardSkipping) (P := fun _ o => ∀ σ info, o = .slot σ info .finalized → _) ?_ pre _ post e σ info rfl
      intro n hn σ info
      match n, hn with
      | 0, _ | 1, _ | 2, _ | 3, _ | 4, _ => intro h; cases h)) heardSkipping_along
    heardStore_run (by decide +kernel) rfl (listened_eq (by decide +kernel))
  have e : ∀ r, (listened (tokenListen Toy.codecs .confirmed heardStore heardAccount heardSkipping)).1.getAccount Toy.alice .confirmed = .ok r →
      (listened (tokenListen Toy.codecs .confirmed heardStore heardAccount heardSkipping)).2 Toy.alice ≠ r.map (·.account) := by
    intro r hr
    have hne : (match (listened (tokenListen Toy.codecs .confirmed heardStore heardAccount heardSkipping)).1.getAccount Toy.alice .confirmed with
      | .ok r => decide ((listened (tokenListen Toy.codecs .confirmed heardStore heardAccount heardSkipping)).2 Toy.alice ≠ r.map (·.account))
      | _ => true) = true := by decide +kernel
    rw [hr] at hne
    simpa using hne
  exact e r h1 h2

end LAM.Props
