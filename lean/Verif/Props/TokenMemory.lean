import Verif.Props.TokenStore
import Verif.Props.TokenStorage
import Verif.Props.StoreMemory
import Verif.Lemmas.Simulator
/-!
# C121: what the token store keeps
-/
namespace LAM.Props
open Spec Token TokenStorage
open TokenStore (TOp)

/-- Every account submitted in the history is one of `keys`. -/
def TokenAmong (keys : List Pubkey) (ops : List TOp) : Prop :=
  ∀ o ∈ ops, ∀ a, o.account = some a → a.pubkey ∈ keys

/-- **C121**. The storage of token accounts has no more entries than there are accounts, and lists no more
for an owner. -/
def C121_statement : Prop :=
  ∀ (X : Codecs) (ops : List TOp) (s : TokenStore) (keys : List Pubkey), X.Lawful →
    TokenStore.run X ops .empty = .ok s → TokenAmong keys ops →
    s.tokens.accounts.length ≤ keys.length ∧
    ∀ o l, s.byOwner.find o = some l → l.length ≤ keys.length

/-- The entry at position `i` is a token account that was not deleted. -/
def LiveAt (s : TokenStore) (i : Nat) : Prop :=
  ∃ b t, s.tokens.accounts[i]? = some b ∧ TokenAccount.fromBytes b = .ok t ∧ t.isDeleted = false

/-- The invariant, counting the states submitted. -/
theorem run_inv_submitted {X : Codecs} {Q : ProgramAccount → Prop} (ops : List TOp) {n : Nat} {s s' : TokenStore}
    {slots orig : List TokenAccount} (h : Token.Inv Q n s slots orig) (hn : n + ops.length < 2 ^ 31)
    (hq : ∀ o ∈ ops, ∀ a, o.account = some a → ∀ T x T', classify X T a = .ok (some x, T') → Q x)
    (hr : TokenStore.run X ops s = .ok s') :
    ∃ slots' orig', Token.Inv Q (n + (ops.filterMap TOp.account).length) s' slots' orig' := by
  induction ops generalizing s slots orig n with
  | nil => simp [TokenStore.run] at hr; subst hr; exact ⟨slots, orig, h⟩
  | cons o os ih =>
    simp only [TokenStore.run, Run.bind_eq_ok] at hr
    obtain ⟨s1, h1, hr⟩ := hr
    simp only [List.length_cons] at hn
    cases ho : o.account with
    | some a =>
      obtain ⟨slots1, orig1, i1⟩ := step_inv h (by omega) (fun a ha x T' hx => hq o (by simp) a ha _ x T' hx) h1
      obtain ⟨slots', orig', i2⟩ := ih i1 (by omega) (fun o ho => hq o (by simp [ho])) hr
      refine ⟨slots', orig', i2.mono ?_⟩
      rw [List.filterMap_cons_some ho, List.length_cons]; omega
    | none =>
      cases o with
      | update a c => simp [TOp.account] at ho
      | init a => simp [TOp.account] at ho
      | slot σ info c =>
        simp only [TokenStore.step, Run.bind_eq_ok] at h1
        obtain ⟨⟨b, s2⟩, h2, h1⟩ := h1
        simp at h1; subst h1
        obtain ⟨slots1, orig1, i1⟩ := slot_inv h (by omega) h2
        obtain ⟨slots', orig', i2⟩ := ih i1 (by omega) (fun o ho => hq o (by simp [ho])) hr
        refine ⟨slots', orig', i2.mono ?_⟩
        rw [List.filterMap_cons_none ho]; omega

/-- **C121 (partial)**. The storage has no more entries than states submitted, and no more entries of open
accounts than there are accounts, if no two of them share the first four bytes.  Missing: entries of closed
accounts, which are kept (`C121_grows`). -/
theorem C121_partial (X : Codecs) (ops : List TOp) (s : TokenStore) (keys : List Pubkey) (hn : ops.length < 2 ^ 31)
    (hr : TokenStore.run X ops .empty = .ok s) (hk : TokenAmong keys ops) :
    s.tokens.accounts.length ≤ (ops.filterMap TOp.account).length ∧
    ((∀ p ∈ keys, ∀ q ∈ keys, prefix4 p = prefix4 q → p = q) →
      ∀ l : List Nat, l.Nodup → (∀ i ∈ l, LiveAt s i) → l.length ≤ keys.length) := by
  obtain ⟨slots, orig, inv⟩ := run_inv_submitted (Q := fun x => x.pubkey ∈ keys) ops (inv_empty _) (by omega)
    (fun o ho a ha T x T' hx => by
      have := (classify_some hx).1
      simp only [this]; exact hk o ho a ha) hr
  have hb := inv.bound
  have hal : s.tokens.accounts.length = slots.length := by simp [inv.fin.holds.accounts]
  refine ⟨by omega, ?_⟩
  intro hu l hl hlive
  have hslot : ∀ i ∈ l, ∃ t, slots[i]? = some t ∧ t.isDeleted = false ∧ t.pubkey ∈ keys := by
    intro i hi
    obtain ⟨b, t, h1, h2, h3⟩ := hlive i hi
    rw [inv.fin.holds.accounts, List.getElem?_map] at h1
    cases hs : slots[i]? with
    | none => simp [hs] at h1
    | some u =>
      simp [hs] at h1; subst h1
      have hm := List.mem_of_getElem? hs
      rw [fromBytes_toBytes (inv.fin.holds.fits u hm)] at h2; cases h2
      rcases inv.fin.slotsQ t hm with rfl | ⟨h4, -, -⟩
      · simp [tombstone] at h3
      · exact ⟨t, rfl, h3, h4⟩
  have h2 := pigeon (l.map (fun i => (slots[i]?).map (·.pubkey))) (keys.map some) (by
    rw [List.nodup_iff_pairwise_ne, List.pairwise_map]
    refine List.Pairwise.imp_of_mem ?_ hl
    intro i j hi hj hne heq
    obtain ⟨t, ht, hdt, hkt⟩ := hslot i hi
    obtain ⟨u, hu', hdu, hku⟩ := hslot j hj
    simp [ht, hu'] at heq
    have hno : ∀ p, p ≠ t.pubkey → prefix4 p = prefix4 t.pubkey → ¬ (ProgramAccount.deleted p).pubkey ∈ keys :=
      fun p hp hpp hm => hp (hu p hm _ hkt hpp)
    obtain ⟨is, hb1, hi1, _⟩ := inv.fin.linked t.pubkey hno i t ht rfl hdt
    obtain ⟨js, hb2, hj1, _⟩ := inv.fin.linked t.pubkey hno j u hu' heq.symm hdu
    rw [← heq, hb1] at hb2; cases hb2
    exact hne (inv.fin.holds.unique _ _ _ _ _ _ hb1 hi1 hj1 ht hu' heq)) (by
    intro x hx
    obtain ⟨i, hi, rfl⟩ := List.mem_map.1 hx
    obtain ⟨t, ht, -, hkt⟩ := hslot i hi
    simp [ht, hkt])
  simpa using h2

/-! ## One account opened and closed over and over -/

/-- A store with the mint loaded. -/
def loadedMint : TokenStore := okStore (TokenStore.run Toy.codecs [.init mintAcct] .empty)

theorem loadedMint_eq : TokenStore.run Toy.codecs [.init mintAcct] .empty = .ok loadedMint := by decide +kernel

/-- The token account of `alice` as stored. -/
def churnToken : TokenAccount :=
  match classify Toy.codecs loadedMint.table (tokenAcct Toy.alice 0 1) with
  | .ok (some (.token t), _) => t
  | _ => tombstone

theorem classify_slot (X : Codecs) (T : MintTable) (pk o : Pubkey) (l n wv : Nat) (d : Bytes) :
    classify X T (Toy.acct pk o l n wv d) = classify X T (Toy.acct pk o l 0 wv d) := by
  unfold classify; rfl

theorem churn_token (n : Nat) : classify Toy.codecs loadedMint.table (tokenAcct Toy.alice n 1) =
    .ok (some (.token churnToken), loadedMint.table) := by
  rw [tokenAcct, classify_slot]
  decide +kernel

theorem churn_closed (n : Nat) : classify Toy.codecs loadedMint.table (closedAcct Toy.alice n 1) =
    .ok (some (.deleted Toy.alice), loadedMint.table) := by
  rw [closedAcct, classify_slot]
  decide +kernel

theorem churnToken_pubkey : churnToken.pubkey = Toy.alice := by decide +kernel

theorem churnToken_live : churnToken.isDeleted = false := by decide +kernel

theorem churnToken_bytes : getPubkeyFromBinary churnToken.toBytes = .ok Toy.alice := by decide +kernel

theorem tombstone_bytes : getPubkeyFromBinary tombstone.toBytes = .ok Pubkey.default := by decide +kernel

theorem churn_mint : ∃ m, loadedMint.mints.find churnToken.mint = some m := by
  refine Option.isSome_iff_exists.1 ?_
  decide +kernel

/-- A state submitted as processed in a slot that is then finalized. -/
def streamed (a : AccountData) : List TOp :=
  [.update a .processed, .slot plainOrders ⟨a.slot, a.slot - 1, 0⟩ .finalized]

theorem streamed_eq {X : Codecs} {s s' : TokenStore} {a : AccountData} {x : ProgramAccount} {r : Option AccountData}
    (hp : s.processed = []) (hf : s.finalizedSlot < a.slot) (ho : a.account.owner = Spl.tokenId)
    (hc : classify X s.table a = .ok (some x, s.table)) (ht : x.toSolana s.mints a.slot a.wv = .ok r)
    (ha : ({ s with finalizedSlot := a.slot } : TokenStore).addFinalized x = .ok s') :
    TokenStore.run X (streamed a) s = .ok s' := by
  have h1 : s.updateAccount X a .processed =
      .ok (true, { s with processed := [(a.slot, ⟨[(a.pubkey, ⟨x, a.wv⟩)], none⟩)] }) := by
    simp [TokenStore.updateAccount, TokenStore.isTokenAccount, ho, hc, hp, ProcStore.insertAccount, BMap.insert]
  simp [streamed, TokenStore.run, TokenStore.step, h1, TokenStore.processSlot, hf, ProcStore.updateSlotInfo, BMap.find,
    BMap.insert, ProcStore.finalize, ProcStore.finalizeLoop, ProcStore.collect, AMap.find, AMap.insert, BMap.erase,
    ProcStore.dropUpTo, plainOrders, ProcStore.toSolanaAll, ht, TokenStore.addAll]
  rw [hp] at ha
  simp [ha]

/-- What is left of `k` accounts opened and closed. -/
structure Emptied (n k : Nat) (s : TokenStore) : Prop where
  mints : s.mints = loadedMint.mints
  table : s.table = loadedMint.table
  multisigs : s.multisigs = []
  processed : s.processed = []
  slot : s.finalizedSlot ≤ n
  bucket : s.tokens.buckets.find (prefix4 Toy.alice) = none
  accounts : s.tokens.accounts = List.replicate k tombstone.toBytes
  owner : ((s.byOwner.find (prefix4 churnToken.owner)).getD []).length = k

/-- The token account is opened in one slot and closed in the next. -/
def churnTokens : Nat → List TOp
  | 0 => [.init mintAcct]
  | k + 1 => churnTokens k ++ (streamed (tokenAcct Toy.alice (2 * k + 1) 1) ++ streamed (closedAcct Toy.alice (2 * k + 2) 1))

theorem push_getD {m : AMap Bytes (List Nat)} {k : Bytes} {i : Nat} :
    (((TokenStore.push m k i).find k).getD []).length = ((m.find k).getD []).length + 1 := by
  unfold TokenStore.push
  cases m.find k <;> simp [AMap.find_insert]

/-- The store once the account is opened. -/
def opened (s : TokenStore) (n k : Nat) : TokenStore :=
  { s with
    finalizedSlot := n
    tokens := ⟨s.tokens.buckets.insert (prefix4 Toy.alice) [wrap32 k], s.tokens.accounts ++ [churnToken.toBytes]⟩
    byMint := TokenStore.push s.byMint churnToken.mint (wrap32 k)
    byOwner := TokenStore.push s.byOwner (prefix4 churnToken.owner) (wrap32 k) }

theorem emptied_open {n k : Nat} {s : TokenStore} (h : Emptied n k s) :
    TokenStore.run Toy.codecs (streamed (tokenAcct Toy.alice (n + 1) 1)) s = .ok (opened s (n + 1) k) := by
  obtain ⟨m, hm⟩ := churn_mint
  refine streamed_eq (x := .token churnToken) (a := tokenAcct Toy.alice (n + 1) 1) h.processed
    (Nat.lt_succ_of_le h.slot) rfl (by rw [h.table]; exact churn_token _)
    (by rw [h.mints]; exact tokenToSolana_ok churnToken_live hm _ _) ?_
  simp only [TokenStore.addFinalized, TokenStorage.save, churnToken_pubkey, h.bucket, Run.ok_bind, Run.pure_eq, if_true]
  simp [opened, h.accounts, tokenAcct, Toy.acct]

theorem emptied_close {n k : Nat} {s : TokenStore} (h : Emptied n k s) (hk : k < 2 ^ 32) :
    ∃ s', TokenStore.run Toy.codecs (streamed (closedAcct Toy.alice (n + 2) 1)) (opened s (n + 1) k) = .ok s' ∧
      Emptied (n + 2) (k + 1) s' := by
  have hw : wrap32 k = k := Nat.mod_eq_of_lt hk
  refine ⟨{ opened s (n + 1) k with
    finalizedSlot := n + 2
    tokens := ⟨(s.tokens.buckets.insert (prefix4 Toy.alice) [k]).erase (prefix4 Toy.alice),
      List.replicate (k + 1) tombstone.toBytes⟩ }, streamed_eq (x := .deleted Toy.alice) (r := none)
    (a := closedAcct Toy.alice (n + 2) 1) h.processed (Nat.lt_succ_self _) rfl (by
      show classify _ s.table _ = .ok (_, s.table)
      rw [h.table]; exact churn_closed _) (by simp [ProgramAccount.toSolana]) ?_, ?_⟩
  · have h1 : (opened s (n + 1) k).table.index.find Toy.alice = none := by
      show s.table.index.find _ = _
      rw [h.table]; decide +kernel
    simp only [TokenStore.addFinalized, h1]
    simp [TokenStorage.delete, opened, AMap.find_insert, firstMatch, hw, h.accounts, churnToken_bytes, closedAcct,
      Toy.acct, List.set_append, List.replicate_succ']
  · exact {
      mints := h.mints
      table := h.table
      multisigs := h.multisigs
      processed := h.processed
      slot := Nat.le_refl _
      bucket := by simp [AMap.find_erase]
      accounts := rfl
      owner := by simp only [opened]; rw [push_getD, h.owner] }

theorem churn_emptied (k : Nat) (hk : k ≤ 2 ^ 32) :
    ∃ s, TokenStore.run Toy.codecs (churnTokens k) .empty = .ok s ∧ Emptied (2 * k) k s := by
  induction k with
  | zero =>
    refine ⟨loadedMint, loadedMint_eq, ?_⟩
    exact {
      mints := rfl
      table := rfl
      multisigs := by decide +kernel
      processed := by decide +kernel
      slot := by decide +kernel
      bucket := by decide +kernel
      accounts := by decide +kernel
      owner := by decide +kernel }
  | succ k ih =>
    obtain ⟨s, h1, h2⟩ := ih (by omega)
    obtain ⟨s', h3, h4⟩ := emptied_close h2 (by omega)
    refine ⟨s', ?_, h4⟩
    rw [churnTokens, Sim.run_append_store, h1, Run.ok_bind, Sim.run_append_store, emptied_open h2, Run.ok_bind]
    exact h3

theorem churn_among (k : Nat) : TokenAmong [aMint.pubkey, Toy.alice] (churnTokens k) := by
  induction k with
  | zero =>
    intro o ho a ha
    simp [churnTokens] at ho; subst ho; simp [TOp.account] at ha; subst ha
    decide +kernel
  | succ k ih =>
    intro o ho a ha
    simp [churnTokens, streamed] at ho
    rcases ho with ho | rfl | rfl | rfl | rfl
    · exact ih o ho a ha
    all_goals simp [TOp.account] at ha
    all_goals subst ha; simp [tokenAcct, closedAcct, Toy.acct]

/-- **C121**. One token account opened and closed `k` times leaves `k` entries, and a list of `k` positions
for its owner. -/
theorem C121_grows (k : Nat) (h0 : 0 < k) (hk : k ≤ 2 ^ 32) :
    ∃ (ops : List TOp) (s : TokenStore), TokenStore.run Toy.codecs ops .empty = .ok s ∧
      TokenAmong [aMint.pubkey, Toy.alice] ops ∧ s.tokens.accounts.length = k ∧ (∀ i, ¬ LiveAt s i) ∧
      ∃ o l, s.byOwner.find o = some l ∧ l.length = k := by
  obtain ⟨s, h1, h2⟩ := churn_emptied k hk
  refine ⟨churnTokens k, s, h1, churn_among k, by simp [h2.accounts], ?_, ?_⟩
  · rintro i ⟨b, t, hb, ht, hd⟩
    rw [h2.accounts] at hb
    obtain rfl := List.eq_of_mem_replicate (List.mem_of_getElem? hb)
    have h3 : TokenAccount.fromBytes tombstone.toBytes = .ok tombstone := by decide +kernel
    rw [h3] at ht; cases ht
    simp [tombstone] at hd
  · cases h3 : s.byOwner.find (prefix4 churnToken.owner) with
    | some l => exact ⟨_, l, h3, by simpa [h3] using h2.owner⟩
    | none =>
      have := h2.owner
      simp [h3] at this
      omega

/-- **C121** is false of the code. -/
theorem C121_refuted : ¬ C121_statement := by
  intro h
  obtain ⟨ops, s, h1, h2, h3, -, -⟩ := C121_grows 3 (by decide) (by decide)
  have := (h Toy.codecs ops s _ Toy.lawful h1 h2).1
  simp [h3] at this

theorem emptied_lost {n k : Nat} {s : TokenStore} (h : Emptied n k s) (h0 : 0 < k) (hk : wrap32 k = 0) :
    (opened s (n + 1) k).getAccount Toy.alice .finalized = .ok none := by
  have h3 : s.table.index.find Toy.alice = none := by rw [h.table]; decide +kernel
  have h4 : Pubkey.default ≠ Toy.alice := by decide
  have h6 : (List.replicate k tombstone.toBytes ++ [churnToken.toBytes])[0]? = some tombstone.toBytes := by
    cases k with
    | zero => omega
    | succ k => simp [List.replicate_succ]
  have h5 : (s.tokens.buckets.insert (prefix4 Toy.alice) [0]).find (prefix4 Toy.alice) = some [0] := by
    rw [AMap.find_insert, if_pos rfl]
  have h7 : firstMatch (List.replicate k tombstone.toBytes ++ [churnToken.toBytes]) Toy.alice [0] = .ok none := by
    rw [firstMatch, h6]
    simp [tombstone_bytes, h4, firstMatch]
  have h8 : s.multisigs.find Toy.alice = none := by rw [h.multisigs]; rfl
  simp [TokenStore.getAccount, TokenStore.getFinalized, opened, h8, h3, getByPubkey, h.accounts, hk, h5, h7]

/-- **C121**. Positions are numbers of 32 bits and those of closed accounts are not used again.  After `2^32`
openings and closings of one account the next opening is stored under position 0, and an account that was
opened and finalized is not found. -/
theorem C121_lost :
    ∃ (ops : List TOp) (s s' : TokenStore) (a : AccountData), TokenStore.run Toy.codecs ops .empty = .ok s ∧
      TokenAmong [aMint.pubkey, a.pubkey] ops ∧ TokenStore.run Toy.codecs (streamed a) s = .ok s' ∧
      a.account.lamports ≠ 0 ∧ s.finalizedSlot < a.slot ∧ s'.getAccount a.pubkey .finalized = .ok none := by
  obtain ⟨k, hk⟩ : ∃ k, k = 2 ^ 32 := ⟨_, rfl⟩
  obtain ⟨s, h1, h2⟩ := churn_emptied k (by omega)
  refine ⟨churnTokens k, s, _, tokenAcct Toy.alice (2 * k + 1) 1, h1, churn_among _, emptied_open h2,
    by simp [tokenAcct, Toy.acct], Nat.lt_succ_of_le h2.slot, ?_⟩
  exact emptied_lost h2 (by omega) (by rw [hk]; decide)

/-- The first opening, by contrast, is found: the account above is lost because of its position alone. -/
example : (match TokenStore.run Toy.codecs (streamed (tokenAcct Toy.alice 1 1)) loadedMint with
    | .ok s' => (match s'.getAccount Toy.alice .finalized with | .ok (some _) => true | _ => false)
    | _ => false) = true := by decide +kernel

/-- Two keys, no shared prefix: the conditions of `C121_partial` hold and there is an open account. -/
example : ∃ s, TokenStore.run Toy.codecs (.init mintAcct :: streamed (tokenAcct Toy.alice 1 1)) .empty = .ok s ∧
    TokenAmong [aMint.pubkey, Toy.alice] (.init mintAcct :: streamed (tokenAcct Toy.alice 1 1)) ∧
    (∀ p ∈ [aMint.pubkey, Toy.alice], ∀ q ∈ [aMint.pubkey, Toy.alice], prefix4 p = prefix4 q → p = q) ∧ LiveAt s 0 := by
  obtain ⟨s, h1, h2⟩ := churn_emptied 0 (by decide)
  refine ⟨opened s 1 0, ?_, ?_, by decide +kernel, churnToken.toBytes, churnToken, ?_, by decide +kernel, churnToken_live⟩
  · have : (.init mintAcct :: streamed (tokenAcct Toy.alice 1 1) : List TOp) = churnTokens 0 ++ streamed (tokenAcct Toy.alice 1 1) := rfl
    rw [this, Sim.run_append_store, h1, Run.ok_bind]; exact emptied_open h2
  · intro o ho a ha
    refine churn_among 1 o ?_ a ha
    simp [churnTokens, streamed] at ho ⊢
    rcases ho with rfl | rfl | rfl <;> simp
  · simp [opened, h2.accounts]
