import Verif.Props.TokenConcDue
import Verif.Lemmas.TokenConcKeeps
/-!
# Concurrent calls of the token program store keep finalized token accounts that are not closed: C156
-/
namespace LAM.Props
open Spec Token TokConc

/-- **C156**. Whatever is executed at the same time: once a token account was submitted as finalized and the call has returned `true`,
every later `get_account` shows the account, at all commitments, if no submitted account whose address begins with the same four bytes
is closed. -/
theorem C156_get (E : TokConc.Env) (w : TokConc.World) (hr : TokConc.Reachable E w) (hb : submits w.log ≤ 2 ^ 31)
    (hlen : w.st.tokens.accounts.length ≤ 2 ^ 32) (a : AccountData) (ht : IsToken E.codecs a) (hd : a.pubkey ≠ Pubkey.default)
    (hn : NoneGone a.pubkey w.log) (pre mid post : List (Nat × Event)) (t : Nat) (c : Commitment) (o : Option AccountData)
    (hl : w.log = (pre ++ (t, .call (.get a.pubkey c)) :: mid) ++ (t, .ret (.account o)) :: post) (hm : ∀ e ∈ mid, e.1 ≠ t)
    (ha : Installed pre a) : ∃ b, o = some b ∧ b.pubkey = a.pubkey := by
  have h := (keeps_lists hd ht hr hb hlen hn).1.reads
  obtain ⟨k, hk, hok⟩ : ∃ k, LastCall (pre ++ (t, .call (.get a.pubkey c)) :: mid) t k ∧ ReplyOK E.codecs _ k (.account o) := by
    obtain ⟨g, N, -, -, -, -, h⟩ := inv hr hb
    exact h _ post t _ hl
  have hget : LastCall (pre ++ (t, .call (.get a.pubkey c)) :: mid) t (.get a.pubkey c) := ⟨pre, mid, rfl, hm⟩
  rw [lastCall_unique hk hget] at hok
  cases o with
  | none => exact absurd ⟨pre, mid, rfl, hm, ha⟩ (h _ post t c hl)
  | some b => exact ⟨b, rfl, (hok b rfl).1⟩

/-- **C156** for queries, as one would like it: once a token account was submitted as finalized and the call has returned `true`,
every later query of its owner that succeeds has the account in its answer. -/
def C156_statement : Prop :=
  ∀ (E : TokConc.Env) (w : TokConc.World), TokConc.Reachable E w → submits w.log ≤ 2 ^ 31 →
    w.st.tokens.accounts.length ≤ 2 ^ 32 →
    ∀ (a : AccountData) (owner : Pubkey), IsToken E.codecs a → a.pubkey ≠ Pubkey.default → NoneGone a.pubkey w.log →
    HeldOnlyBy E.codecs a.pubkey owner w.log →
    ∀ (pre mid post : List (Nat × Event)) (t : Nat) (program : Pubkey) (fs : List AccountFilterType) (c : Commitment)
      (l : List AccountData),
      w.log = (pre ++ (t, .call (.gpa program (some fs) c)) :: mid) ++ (t, .ret (.accounts (.ok l))) :: post →
      (∀ e ∈ mid, e.1 ≠ t) → AsksOwner program fs owner → (∀ m, ¬ AsksMint program fs m) → Installed pre a →
      ∃ b ∈ l, b.pubkey = a.pubkey

/-- **C156** for queries, if there was a moment between the update and the query when no writing call was being executed.  Missing:
the queries before such a moment, for which the claim is false (`C156_refuted`). -/
theorem C156_query_partial (E : TokConc.Env) (w : TokConc.World) (hr : TokConc.Reachable E w) (hb : submits w.log ≤ 2 ^ 31)
    (hlen : w.st.tokens.accounts.length ≤ 2 ^ 32) (a : AccountData) (owner : Pubkey) (ht : IsToken E.codecs a)
    (hd : a.pubkey ≠ Pubkey.default) (hn : NoneGone a.pubkey w.log) (hh : HeldOnlyBy E.codecs a.pubkey owner w.log)
    (pre mid post : List (Nat × Event)) (t : Nat) (program : Pubkey) (fs : List AccountFilterType) (c : Commitment)
    (l : List AccountData) (hl : w.log = (pre ++ (t, .call (.gpa program (some fs) c)) :: mid) ++ (t, .ret (.accounts (.ok l))) :: post)
    (hm : ∀ e ∈ mid, e.1 ≠ t) (hq : AsksOwner program fs owner) (hx : ∀ m, ¬ AsksMint program fs m) (ha : Rested pre a) :
    ∃ b ∈ l, b.pubkey = a.pubkey :=
  ((keeps_lists hd ht hr hb hlen hn).2 owner hh).queries _ post t program fs c l hl ⟨pre, mid, rfl, hm, ha⟩ hq hx

/-! ## A query before the account is in the index by owner -/

open DueLog

/-- Thread 0 stores `alice` for the first time, and has not yet entered it in the index by owner. -/
def halfwayT : List TokConc.Move :=
  .call 0 (.submit mintAcct none) :: goT 0 5 ++ .call 0 (.submit (tokenAcct Toy.alice 1 1) none) :: goT 0 5 ++
    .call 1 (.submit (amountAcct Toy.alice 5 2 2) none) :: goT 1 5

/-- The events of `halfwayT`. -/
def halfLog : List (Nat × Event) :=
  [(0, .call (.submit mintAcct none)), (0, .ret (.updated true)), (0, .call (.submit (tokenAcct Toy.alice 1 1) none)),
    (1, .call (.submit (amountAcct Toy.alice 5 2 2) none)), (1, .ret (.updated true))]

/-- Then thread 1 asks for the accounts of `bob`. -/
def unlistedT : List TokConc.Move := halfwayT ++ .call 1 (.gpa Spl.tokenId (some byBob) .finalized) :: goT 1 4

theorem unlistedT_log : (playT unlistedT).log =
    (halfLog ++ (1, .call (.gpa Spl.tokenId (some byBob) .finalized)) :: []) ++ (1, .ret (.accounts (.ok []))) :: [] := by
  decide +kernel

theorem half_installed : Installed halfLog (amountAcct Toy.alice 5 2 2) :=
  ⟨halfLog.take 4, [], 1, none, rfl, ⟨halfLog.take 3, [], rfl, by simp⟩, .inl rfl⟩

theorem amount_layout (n : Nat) (h : n < 2 ^ 64) : AccountLayout { splAccount with amount := n }.pack { splAccount with amount := n } :=
  C45_pack_is_layout.1 _ (by constructor <;> simp [splAccount]; exact h)

theorem amount_token (n slot wv : Nat) (h : n < 2 ^ 64) : IsToken Toy.codecs (amountAcct Toy.alice n slot wv) :=
  ⟨_, _, rfl, amount_layout n h⟩

/-- These accounts only are submitted. -/
theorem submittedT_of {log : List (Nat × Event)}
    (h : log.all (fun e => match e.2 with
      | .call (.submit b _) => b = mintAcct || b = tokenAcct Toy.alice 1 1 || b = amountAcct Toy.alice 5 2 2
      | _ => true) = true) {b : AccountData} (hb : Submitted log b) :
    b = mintAcct ∨ b = tokenAcct Toy.alice 1 1 ∨ b = amountAcct Toy.alice 5 2 2 := by
  obtain ⟨t, c, hm⟩ := hb
  simpa [or_assoc] using (List.all_eq_true.1 h) _ hm

theorem noneGone_of {log : List (Nat × Event)}
    (h : log.all (fun e => match e.2 with
      | .call (.submit b _) => b = mintAcct || b = tokenAcct Toy.alice 1 1 || b = amountAcct Toy.alice 5 2 2
      | _ => true) = true) : NoneGone Toy.alice log := by
  intro b hb _ hg
  refine hg .tokenProgram ?_
  rcases submittedT_of h hb with rfl | rfl | rfl <;> exact ⟨by decide, rfl⟩

theorem heldByBob_of {log : List (Nat × Event)}
    (h : log.all (fun e => match e.2 with
      | .call (.submit b _) => b = mintAcct || b = tokenAcct Toy.alice 1 1 || b = amountAcct Toy.alice 5 2 2
      | _ => true) = true) : HeldOnlyBy Toy.codecs Toy.alice Toy.bob log := by
  intro b bs sb hb hp hbs hl
  rcases submittedT_of h hb with rfl | rfl | rfl
  · exact absurd hp (by decide)
  · cases hbs
    have e := hl.owner.symm.trans (amount_layout 12 (by decide)).owner; revert e; cases sb.owner; intro e; cases e; rfl
  · cases hbs
    have e := hl.owner.symm.trans (amount_layout 5 (by decide)).owner; revert e; cases sb.owner; intro e; cases e; rfl

/-- **C156** is false of the code for queries: `add_account_finalized` saves a new token account first and enters it in the indexes
afterwards, so that another update of the account can return `true` in between, and a query of the owner does not find it. -/
theorem C156_refuted : ¬ C156_statement := by
  intro h
  obtain ⟨b, hb, -⟩ := h oneShardT (playT unlistedT) (playT_reachable _) (by decide +kernel) (by decide +kernel)
    (amountAcct Toy.alice 5 2 2) Toy.bob (amount_token 5 2 2 (by decide)) (by decide) (noneGone_of (by decide +kernel))
    (heldByBob_of (by decide +kernel)) halfLog [] [] 1 Spl.tokenId byBob .finalized [] unlistedT_log (by simp) asks_byBob.1 asks_byBob.2
    half_installed
  simp at hb

/-! ## Examples -/

/-- After `halfwayT` thread 1 reads `alice`, and meanwhile thread 0 goes on. -/
def halfReadT : List TokConc.Move := halfwayT ++ .call 1 (.get Toy.alice .finalized) :: goT 1 2 ++ goT 0 2 ++ goT 1 5

example : TokConc.Reachable oneShardT (playT halfReadT) ∧ submits (playT halfReadT).log ≤ 2 ^ 31 ∧
    (playT halfReadT).st.tokens.accounts.length ≤ 2 ^ 32 ∧ IsToken Toy.codecs (amountAcct Toy.alice 5 2 2) ∧
    Toy.alice ≠ Pubkey.default ∧ NoneGone Toy.alice (playT halfReadT).log ∧ Installed halfLog (amountAcct Toy.alice 5 2 2) ∧
    (playT halfReadT).log = (halfLog ++ (1, .call (.get Toy.alice .finalized)) :: [(0, .ret (.updated true))]) ++
      (1, .ret (.account (some (shownT 5 0 0)))) :: [] :=
  ⟨playT_reachable _, by decide +kernel, by decide +kernel, amount_token 5 2 2 (by decide), by decide, noneGone_of (by decide +kernel),
    half_installed, by decide +kernel⟩

/-- After `loadT` thread 1 asks for the accounts of `bob`, and meanwhile thread 0 updates `alice`. -/
def restedT : List TokConc.Move :=
  loadT ++ .call 1 (.gpa Spl.tokenId (some byBob) .finalized) :: goT 1 2 ++
    .call 0 (.submit (amountAcct Toy.alice 5 2 2) none) :: goT 0 5 ++ goT 1 4

theorem loaded_rested : Rested loadedT (tokenAcct Toy.alice 1 1) := by
  refine ⟨loadedT, [], by simp, ⟨loadedT.take 3, [], 0, none, rfl, ⟨loadedT.take 2, [], rfl, by simp⟩, .inl rfl⟩, ?_⟩
  intro t k hk
  have e : loadedT = loadedT.take 3 ++ [(0, .ret (.updated true))] := rfl
  rw [e] at hk
  rcases lastCall_snoc.1 hk with ⟨-, h⟩ | ⟨hne, pre, mid, h, -⟩
  · cases h
  · have : (t, Event.call k) ∈ loadedT.take 3 := by rw [h]; simp
    simp [loadedT] at this
    omega

example : TokConc.Reachable oneShardT (playT restedT) ∧ submits (playT restedT).log ≤ 2 ^ 31 ∧
    (playT restedT).st.tokens.accounts.length ≤ 2 ^ 32 ∧ IsToken Toy.codecs (tokenAcct Toy.alice 1 1) ∧
    Toy.alice ≠ Pubkey.default ∧ NoneGone Toy.alice (playT restedT).log ∧ HeldOnlyBy Toy.codecs Toy.alice Toy.bob (playT restedT).log ∧
    AsksOwner Spl.tokenId byBob Toy.bob ∧ (∀ m, ¬ AsksMint Spl.tokenId byBob m) ∧ Rested loadedT (tokenAcct Toy.alice 1 1) ∧
    (playT restedT).log = (loadedT ++ (1, .call (.gpa Spl.tokenId (some byBob) .finalized)) ::
      [(0, .call (.submit (amountAcct Toy.alice 5 2 2) none)), (0, .ret (.updated true))]) ++
      (1, .ret (.accounts (.ok [shownT 5 0 0]))) :: [] :=
  ⟨playT_reachable _, by decide +kernel, by decide +kernel, amount_token 12 1 1 (by decide), by decide, noneGone_of (by decide +kernel),
    heldByBob_of (by decide +kernel), asks_byBob.1, asks_byBob.2, loaded_rested, by decide +kernel⟩

end LAM.Props
