import Verif.Lemmas.TokenStreamFin
import Verif.Props.TokenChain
/-!
# The token program store: what the answer to an update says: C132
-/
namespace LAM.Props
open Spec Token
open TokenStore (TOp)

/-- **C132**, the full claim: an update for a slot above the finalized one is answered with `true` exactly if it has a higher
write version than every state submitted before for its account and slot, and after the answer `false` every read shows what it
showed before. -/
def C132_statement : Prop :=
  ∀ (X : Codecs) (par : Nat → Nat) (ops : List TOp) (a : AccountData) (c : Commitment) (s s' : TokenStore) (b : Bool),
    ops.length < 2 ^ 31 → TrueParents par ops → Accepted X a.pubkey (ops ++ [.update a c]) → c ≠ .finalized →
    lastFinal ops < a.slot → TokenStore.run X ops .empty = .ok s → s.updateAccount X a c = .ok (b, s') →
    (b = true ↔ ∀ d ∈ submittedAt ops a.pubkey a.slot, d.wv < a.wv) ∧
    (b = false → ∀ pk d, s'.getAccount pk d = s.getAccount pk d)

theorem update_answer {X : Codecs} {s s' : TokenStore} {a : AccountData} {c : Commitment} {b : Bool} (hc : c ≠ .finalized)
    (ht : s.isTokenAccount a = .ok true) (hp : ∀ T, ∃ x T', classify X T a = .ok (some x, T'))
    (h : s.updateAccount X a c = .ok (b, s')) :
    b = true ↔ ∀ y, stateAt s.processed a.slot a.pubkey = some y → y.wv < a.wv := by
  unfold TokenStore.updateAccount at h
  obtain ⟨x, T', hx⟩ := hp s.table
  rw [ht] at h
  simp only [Run.ok_bind, Bool.not_true, Bool.false_eq_true, if_false, hx] at h
  rw [if_pos (by cases c <;> simp_all)] at h
  simp only [Run.pure_eq, Run.ok.injEq, Prod.mk.injEq] at h
  obtain ⟨rfl, -⟩ := h
  unfold ProcStore.insertAccount stateAt
  cases hf : BMap.find s.processed a.slot with
  | none => simp
  | some e =>
    cases hy : e.accounts.find a.pubkey with
    | none => simp [hy]
    | some y =>
      simp only [Option.bind_some, hy, Option.some.injEq]
      split <;> simp_all

/-- **C132**. The answer says whether the update is news. -/
theorem C132_news_partial (X : Codecs) (par : Nat → Nat) (ops : List TOp) (a : AccountData) (c : Commitment) (s s' : TokenStore)
    (b : Bool) (hn : ops.length < 2 ^ 31) (hp : TrueParents par ops) (ha : Accepted X a.pubkey (ops ++ [.update a c]))
    (hc : c ≠ .finalized) (hk : lastFinal ops < a.slot) (hr : TokenStore.run X ops .empty = .ok s)
    (hu : s.updateAccount X a c = .ok (b, s')) : b = true ↔ ∀ d ∈ submittedAt ops a.pubkey a.slot, d.wv < a.wv := by
  obtain ⟨ht, hcl⟩ := ha ops a c [] s rfl hc rfl hr
  rw [update_answer hc ht hcl hu]
  rcases stream_recorded ops hn hp (accepted_left ha) hr hk with ⟨h1, h2⟩ | ⟨d, y, h1, ⟨l1, l2, hl, h2, h3⟩, hw, -⟩
  · simp [h1, h2]
  · rw [hl, h1]
    constructor
    · intro h e he
      have := h y rfl
      simp only [List.mem_append, List.mem_cons] at he
      rcases he with he | rfl | he
      · have := h2 e he; omega
      · omega
      · have := h3 e he; omega
    · intro h y' e
      cases e
      have := h d (by simp); omega

/-- After the answer `false` only the table of mint indexes may have changed. -/
theorem update_refused {X : Codecs} {s s' : TokenStore} {a : AccountData} {c : Commitment}
    (h : s.updateAccount X a c = .ok (false, s')) :
    ∃ T, s' = { s with table := T } ∧ (T = s.table ∨ ∃ mint, T = (s.table.getOrCreate mint).2) := by
  unfold TokenStore.updateAccount at h
  simp only [Run.bind_eq_ok] at h
  obtain ⟨isT, -, h⟩ := h
  split at h
  · simp at h; subst h; exact ⟨_, rfl, .inl rfl⟩
  · simp only [Run.bind_eq_ok] at h
    obtain ⟨⟨r, T⟩, hcl, h⟩ := h
    have hT : T = s.table ∨ ∃ mint, T = (s.table.getOrCreate mint).2 := by
      cases r with
      | none => exact .inl (classify_none hcl)
      | some x =>
        rcases (classify_some hcl).2.1 with ⟨h, -⟩ | ⟨t, mint, -, h, -⟩
        · exact .inl h
        · exact .inr ⟨mint, h⟩
    simp only at h
    split at h
    · simp at h; subst h; exact ⟨_, rfl, hT⟩
    · split at h
      · rename_i x _
        simp only [Run.pure_eq, Run.ok.injEq, Prod.mk.injEq] at h
        obtain ⟨h0, rfl⟩ := h
        refine ⟨T, ?_, hT⟩
        have : ∀ P : ProcStore, (P.insertAccount a.pubkey x a.wv a.slot).1 = false → (P.insertAccount a.pubkey x a.wv a.slot).2 = P := by
          intro P; unfold ProcStore.insertAccount
          split
          · split
            · split <;> simp
            · simp
          · simp
        rw [this _ h0]
      · simp only [Run.bind_eq_ok] at h
        obtain ⟨s1, hs1, h⟩ := h
        simp at h

/-- **C132**. After the answer `false`, whatever the update was, a read of a key shows what it showed before unless the update
made the key known as a mint; and if it made none known, nothing at all has changed. -/
theorem C132_false_unchanged_partial (X : Codecs) (s s' : TokenStore) (a : AccountData) (c : Commitment)
    (hu : s.updateAccount X a c = .ok (false, s')) :
    (∀ pk d, (s'.table.index.find pk ≠ none → s.table.index.find pk ≠ none) → s'.getAccount pk d = s.getAccount pk d) ∧
    ((∀ pk, s'.table.index.find pk ≠ none → s.table.index.find pk ≠ none) → s' = s) := by
  obtain ⟨T, rfl, hT⟩ := update_refused hu
  have hsame : ∀ pk, (T.index.find pk ≠ none → s.table.index.find pk ≠ none) → T.index.find pk = s.table.index.find pk := by
    intro pk h
    rcases hT with rfl | ⟨mint, rfl⟩
    · rfl
    · unfold MintTable.getOrCreate at h ⊢
      split
      · rfl
      · rename_i h0
        rw [h0] at h
        simp only [AMap.find_insert] at h ⊢
        split
        · rename_i e; subst e; rw [h0] at h; simp at h
        · rfl
  constructor
  · intro pk d h
    have hf : ({ s with table := T } : TokenStore).getFinalized pk = s.getFinalized pk := by
      unfold TokenStore.getFinalized
      simp only [hsame pk h]
    unfold TokenStore.getAccount
    rw [hf]
  · intro h
    rcases hT with rfl | ⟨mint, rfl⟩
    · rfl
    · have := hsame mint (h mint)
      unfold MintTable.getOrCreate at this ⊢
      split
      · rfl
      · rename_i h0
        rw [h0] at this
        simp [AMap.find_insert] at this

/-- **C132**. An update that is not of a token program account, or cannot be classified, is answered with `false`; a finalized
one that can be is answered with `true`. -/
theorem C132_taken (X : Codecs) (s s' : TokenStore) (a : AccountData) (c : Commitment) (b : Bool)
    (hu : s.updateAccount X a c = .ok (b, s')) :
    ((s.isTokenAccount a = .ok false ∨ ∃ T, classify X s.table a = .ok (none, T)) → b = false ∧ s' = s) ∧
    (c = .finalized → s.isTokenAccount a = .ok true → (∃ x T, classify X s.table a = .ok (some x, T)) → b = true) := by
  unfold TokenStore.updateAccount at hu
  constructor
  · rintro (h | ⟨T, h⟩)
    · rw [h] at hu; simp at hu; exact ⟨hu.1, hu.2.symm⟩
    · obtain rfl := classify_none h
      simp only [Run.bind_eq_ok] at hu
      obtain ⟨isT, -, hu⟩ := hu
      split at hu
      · simp at hu; exact ⟨hu.1, hu.2.symm⟩
      · rw [h] at hu; simp at hu; exact ⟨hu.1, hu.2.symm⟩
  · rintro rfl h ⟨x, T, h'⟩
    rw [h] at hu
    simp only [Run.ok_bind, Bool.not_true, Bool.false_eq_true, if_false, h'] at hu
    simp only [reduceCtorEq, or_self, if_false, Run.bind_eq_ok] at hu
    obtain ⟨s1, -, hu⟩ := hu
    simp at hu; exact hu.1

/-! ## Concrete histories -/

/-- Two states of `alice` for slot 3, the first with write version 2. -/
def answered (a : AccountData) : List TOp := [.init mintAcct, .slot plainOrders ⟨2, 1, 0⟩ .finalized, .update a .processed]

/-- A history that submits token accounts only. -/
theorem accepted_tokens {pk : Pubkey} {ops : List TOp}
    (h : ∀ a c, TOp.update a c ∈ ops → c ≠ .finalized → (∃ p k n, a = tokenAcct p k n) ∨ ∃ p k n, a = closedAcct p k n) :
    Accepted Toy.codecs pk ops := by
  intro pre a c post s e hc _ _
  rcases h a c (by rw [e]; simp) hc with ⟨p, k, n, rfl⟩ | ⟨p, k, n, rfl⟩
  · exact ⟨by simp [TokenStore.isTokenAccount, tokenAcct, Toy.acct], fun T => ⟨_, _, classify_tokenAcct T p k n⟩⟩
  · refine ⟨by simp [TokenStore.isTokenAccount, closedAcct, Toy.acct], fun T => ⟨.deleted p, T, ?_⟩⟩
    unfold classify; rw [if_pos (.inl rfl)]; rfl

theorem answered_parents (a : AccountData) : TrueParents (fun i => i - 1) (answered a) := by
  intro σ info c h
  simp only [answered, List.mem_cons, TOp.slot.injEq, List.not_mem_nil, or_false, reduceCtorEq, false_or] at h
  obtain ⟨-, rfl, -⟩ := h; decide

theorem answered_accepted {a b : AccountData} {c : Commitment}
    (ha : (∃ p k n, a = tokenAcct p k n) ∨ ∃ p k n, a = closedAcct p k n)
    (hb : (∃ p k n, b = tokenAcct p k n) ∨ ∃ p k n, b = closedAcct p k n) {pk : Pubkey} :
    Accepted Toy.codecs pk (answered a ++ [.update b c]) := by
  refine accepted_tokens fun d e h _ => ?_
  simp only [answered, List.cons_append, List.nil_append, List.mem_cons, TOp.update.injEq, List.not_mem_nil, or_false, reduceCtorEq,
    false_or] at h
  rcases h with ⟨rfl, -⟩ | ⟨rfl, -⟩
  · exact ha
  · exact hb

/-- The store after the history, and the answer to one more update. -/
def answerTo (a b : AccountData) : Run (Bool × TokenStore) := (okStore (TokenStore.run Toy.codecs (answered a) .empty)).updateAccount
  Toy.codecs b .confirmed

def okAnswer (r : Run (Bool × TokenStore)) : Bool × TokenStore := match r with | .ok x => x | _ => (false, .empty)

/-- The same write version again is no news, a higher one is. -/
example : (okAnswer (answerTo (tokenAcct Toy.alice 3 2) (tokenAcct Toy.alice 3 2))).1 = false ∧
    (okAnswer (answerTo (tokenAcct Toy.alice 3 2) (tokenAcct Toy.alice 3 3))).1 = true := by
  constructor <;> decide +kernel

example : (okAnswer (answerTo (tokenAcct Toy.alice 3 2) (tokenAcct Toy.alice 3 3))).1 = true ↔
    ∀ d ∈ submittedAt (answered (tokenAcct Toy.alice 3 2)) Toy.alice 3, d.wv < 3 :=
  C132_news_partial Toy.codecs (fun i => i - 1) _ (tokenAcct Toy.alice 3 3) .confirmed
    (okStore (TokenStore.run Toy.codecs (answered (tokenAcct Toy.alice 3 2)) .empty))
    (okAnswer (answerTo (tokenAcct Toy.alice 3 2) (tokenAcct Toy.alice 3 3))).2 _ (by decide)
    (answered_parents _) (answered_accepted (.inl ⟨_, _, _, rfl⟩) (.inl ⟨_, _, _, rfl⟩)) (by decide) (by decide +kernel)
    (by decide +kernel) (by decide +kernel)

/-- After a refused update of a token account of the known mint nothing has changed. -/
example : (okAnswer (answerTo (tokenAcct Toy.alice 3 2) (tokenAcct Toy.alice 3 1))).2 =
    okStore (TokenStore.run Toy.codecs (answered (tokenAcct Toy.alice 3 2)) .empty) := by
  refine (C132_false_unchanged_partial Toy.codecs _ _ (tokenAcct Toy.alice 3 1) .confirmed (by decide +kernel)).2 fun pk h => ?_
  have : (okAnswer (answerTo (tokenAcct Toy.alice 3 2) (tokenAcct Toy.alice 3 1))).2.table =
    (okStore (TokenStore.run Toy.codecs (answered (tokenAcct Toy.alice 3 2)) .empty)).table := by decide +kernel
  rwa [this] at h

/-- The closing of `alice` comes first, then an older state of it as a token account of a mint not seen before. -/
def unheardMint : List TOp := [.update (closedAcct Toy.alice 3 2) .processed]

/-- The full claim is false: an update that is refused enters the mint of its token account all the same, and a read of the mint
panics from then on. -/
theorem C132_refuted : ¬ C132_statement := by
  intro h
  have := (h Toy.codecs (fun i => i - 1) unheardMint (tokenAcct Toy.alice 3 1) .processed
    (okStore (TokenStore.run Toy.codecs unheardMint .empty))
    (okAnswer ((okStore (TokenStore.run Toy.codecs unheardMint .empty)).updateAccount Toy.codecs (tokenAcct Toy.alice 3 1) .processed)).2
    false (by decide) (by intro σ info c h; simp [unheardMint] at h)
    (accepted_tokens fun d e h _ => by
      simp only [unheardMint, List.cons_append, List.nil_append, List.mem_cons, TOp.update.injEq, List.not_mem_nil, or_false] at h
      rcases h with ⟨rfl, -⟩ | ⟨rfl, -⟩
      · exact .inr ⟨_, _, _, rfl⟩
      · exact .inl ⟨_, _, _, rfl⟩)
    (by decide) (by decide +kernel) (by decide +kernel) (by decide +kernel)).2 rfl Toy.prog .finalized
  revert this
  decide +kernel

/-- What the reads of that mint answer before and after. -/
theorem C132_refuted_read :
    (okStore (TokenStore.run Toy.codecs unheardMint .empty)).getAccount Toy.prog .finalized = .ok none ∧
    (okAnswer ((okStore (TokenStore.run Toy.codecs unheardMint .empty)).updateAccount Toy.codecs (tokenAcct Toy.alice 3 1)
      .processed)).2.getAccount Toy.prog .finalized = .panic := by
  constructor <;> decide +kernel

/-- A finalized update is answered with `true` even if it changes nothing. -/
theorem C132_finalized_always : ∃ s, loaded.updateAccount Toy.codecs (tokenAcct Toy.alice 1 1) .finalized = .ok (true, s) ∧
    ∀ d, s.getAccount Toy.alice d = loaded.getAccount Toy.alice d := by
  refine ⟨(okAnswer (loaded.updateAccount Toy.codecs (tokenAcct Toy.alice 1 1) .finalized)).2, by decide +kernel, ?_⟩
  intro d; cases d <;> decide +kernel

example : ∃ s, loaded.updateAccount Toy.codecs (tokenAcct Toy.bob 1 1) .finalized = .ok (true, s) :=
  ⟨(okAnswer (loaded.updateAccount Toy.codecs (tokenAcct Toy.bob 1 1) .finalized)).2, by decide +kernel⟩

end LAM.Props
