import Verif.Lemmas.TokenStreamFin
import Verif.Props.TokenQuery
import Verif.Props.TokenChain
/-!
# The token program store following a validator: C52 (with finalization), C85, C86
-/
namespace LAM.Props
open Spec Token
open TokenStore (TOp)

/-! ## The finalized state does not go back in time -/

/-- **C85**, the full claim: once a state is stored as finalized, a state of an older slot does not replace it. -/
def C85_statement : Prop :=
  ∀ (X : Codecs) (ops : List TOp) (s s' : TokenStore) (a a' : AccountData) (b : Bool), TokenStore.run X ops .empty = .ok s →
    TOp.update a .finalized ∈ ops → a'.pubkey = a.pubkey → a'.slot < a.slot → s.updateAccount X a' .finalized = .ok (b, s') →
    s'.getAccount a.pubkey .finalized = s.getAccount a.pubkey .finalized

/-- **C85** for slot notifications: finalizing a slot that is not newer than the last finalized one changes no account. -/
def C85_slot_statement : Prop :=
  ∀ (X : Codecs) (ops : List TOp) (s s' : TokenStore) (par : Nat → Nat) (σ : Orders) (info : SlotInfo) (notes : List AccountData),
    TokenStore.run X ops .empty = .ok s → TrueParents par (ops ++ [.slot σ info .finalized]) → info.slot ≤ lastFinal ops →
    s.processSlot σ info .finalized = .ok (notes, s') → ∀ pk, s'.getAccount pk .finalized = s.getAccount pk .finalized

/-- **C85**. If every unfinalized state is submitted before a slot as high as its own is finalized, finalizing a slot that is
not newer than the last finalized one changes no account. -/
theorem C85_slot_partial (X : Codecs) (ops : List TOp) (s s' : TokenStore) (par : Nat → Nat) (σ : Orders) (info : SlotInfo)
    (notes : List AccountData) (hn : ops.length < 2 ^ 31 - 1) (ht : OnTime ops) (hr : TokenStore.run X ops .empty = .ok s)
    (hp : TrueParents par (ops ++ [.slot σ info .finalized])) (hle : info.slot ≤ lastFinal ops)
    (hs : s.processSlot σ info .finalized = .ok (notes, s')) (pk : Pubkey) : SameFinalized s s' pk := by
  have hp' := parents_left hp
  have hslot := (run_slots ops (by omega) hp' hr).1
  have hpar := (parents_of (R := fun k p => p < k) (fun σ info c h => (hp' σ info c h).2) hr).2
  have hnone : ∀ p x k, ¬ NewestOn (noted s info s.finalizedSlot) p info.slot x k := by
    intro p x k hx
    have hk : k ≤ info.slot := by
      have : OnChain (noted s info s.finalizedSlot) info.slot k := by
        clear hs hslot hle hp
        generalize info.slot = f at hx
        induction hx with
        | here h1 _ => exact .here h1
        | up h1 _ h2 _ ih => exact .up h1 h2 ih
      exact onChain_le (parents_noted hpar (hp σ info .finalized (by simp)).2) this
    have hst := newestOn_state hx
    rw [stateAt_noted, stream_cleared ops (by omega) hp' ht hr (by omega)] at hst
    simp at hst
  refine (C54_newest_partial X ops s s' σ info notes hn hr hs pk ?_).2 (hnone pk)
  intro p x k _ _ hx
  exact absurd hx (hnone p x k)

/-- The token account of `alice` with another amount. -/
def otherAcct (slot wv : Nat) : AccountData :=
  Toy.acct Toy.alice Spl.tokenId 7 slot wv ({ splAccount with amount := 99 }).pack

/-- Both claims are false: finalized submissions overwrite whatever is there … -/
theorem C85_refuted : ¬ C85_statement := by
  intro h
  have hr : TokenStore.run Toy.codecs [.init mintAcct, .update (tokenAcct Toy.alice 5 1) .finalized] .empty =
      .ok (okStore (TokenStore.run Toy.codecs [.init mintAcct, .update (tokenAcct Toy.alice 5 1) .finalized] .empty)) := by
    decide +kernel
  have := h Toy.codecs _ _ (match TokenStore.updateAccount Toy.codecs (okStore (TokenStore.run Toy.codecs
      [.init mintAcct, .update (tokenAcct Toy.alice 5 1) .finalized] .empty)) (otherAcct 3 1) .finalized with
      | .ok (_, s) => s | _ => .empty) (tokenAcct Toy.alice 5 1) (otherAcct 3 1) true hr (by simp) rfl (by decide)
    (by decide +kernel)
  exact absurd this (by decide +kernel)

/-- Slot 5 is finalized with one state of `alice`; then another one arrives for slot 3. -/
def lateOps : List TOp := [.init mintAcct, .update (tokenAcct Toy.alice 5 1) .processed, .slot plainOrders ⟨5, 4, 0⟩ .finalized,
  .update (otherAcct 3 1) .processed]

/-- … and a state that arrives late is stored when its older slot is finalized again. -/
theorem C85_slot_refuted : ¬ C85_slot_statement := by
  intro h
  have hr : TokenStore.run Toy.codecs lateOps .empty = .ok (okStore (TokenStore.run Toy.codecs lateOps .empty)) := by
    decide +kernel
  have := h Toy.codecs lateOps _ (match (okStore (TokenStore.run Toy.codecs lateOps .empty)).processSlot
      plainOrders ⟨3, 2, 0⟩ .finalized with | .ok (_, s) => s | _ => .empty) before plainOrders ⟨3, 2, 0⟩
    (match (okStore (TokenStore.run Toy.codecs lateOps .empty)).processSlot
      plainOrders ⟨3, 2, 0⟩ .finalized with | .ok (n, _) => n | _ => []) hr (by
      intro σ info c hm
      simp only [lateOps, List.cons_append, List.nil_append, List.mem_cons, List.not_mem_nil, or_false, reduceCtorEq, false_or,
        TOp.slot.injEq] at hm
      rcases hm with ⟨-, rfl, -⟩ | ⟨-, rfl, -⟩ <;> simp [before]) (by decide +kernel) (by decide +kernel) Toy.alice
  exact absurd this (by decide +kernel)

/-! ## From the stream to the read -/

/-- **C86**, the full claim: after any history the finalized tables hold the newest state submitted on the chain of the last
finalized slot. -/
def C86_statement : Prop :=
  ∀ (X : Codecs) (ops : List TOp) (s : TokenStore) (par : Nat → Nat) (pk : Pubkey) (a : AccountData) (k : Nat),
    (∀ i, par i ≤ i) → TrueParents par ops → Accepted X pk ops → TokenStore.run X ops .empty = .ok s → 0 < lastFinal ops →
    NewestTrue ops par pk (lastFinal ops) a k → ∃ x, Taken X ops a x ∧ Holding s x

/-- **C86**. The newest state submitted on the chain of the last finalized slot is the stored one if: states arrive before
their slot is passed by a finalized one; slots are finalized along one chain whose links were recorded; snapshot states of
`pk` were loaded before; no other key with the same first four bytes is closed; and `pk` is never closed, or is only ever a
token account. -/
theorem C86_holds_partial (X : Codecs) (ops : List TOp) (s : TokenStore) (par : Nat → Nat) (pk : Pubkey) (a : AccountData) (k : Nat)
    (hn : ops.length < 2 ^ 31) (hd : ∀ i, par i ≤ i) (hp : TrueParents par ops) (ha : Accepted X pk ops)
    (hr : TokenStore.run X ops .empty = .ok s) (h0 : 0 < lastFinal ops) (hnew : NewestTrue ops par pk (lastFinal ops) a k)
    (ht : OnTime ops) (hc : Chained X par pk ops) (hl : LoadedFirst pk ops) (hw : NoTwinClosed X pk ops)
    (hk : NeverClosed X pk ops ∨ OnlyToken X pk ops) : ∃ x, Taken X ops a x ∧ x.pubkey = pk ∧ Holding s x :=
  stream_holds ops hn hd hp ht hc hl (fun _ => hw) seenKey_true ha hk hr h0 hnew

/-- **C86**. For a key that is never closed and never a token account, closings of other keys do not matter. -/
theorem C86_mints_partial (X : Codecs) (ops : List TOp) (s : TokenStore) (par : Nat → Nat) (pk : Pubkey) (a : AccountData) (k : Nat)
    (hn : ops.length < 2 ^ 31) (hd : ∀ i, par i ≤ i) (hp : TrueParents par ops) (ha : Accepted X pk ops)
    (hr : TokenStore.run X ops .empty = .ok s) (h0 : 0 < lastFinal ops) (hnew : NewestTrue ops par pk (lastFinal ops) a k)
    (ht : OnTime ops) (hc : Chained X par pk ops) (hl : LoadedFirst pk ops) (hk : NeverClosed X pk ops) (hk' : NeverToken X pk ops) :
    ∃ x, Taken X ops a x ∧ x.pubkey = pk ∧ Holding s x := by
  refine stream_holds (w := false) ops hn hd hp ht hc hl (by simp) ?_ ha (.inl hk) hr h0 hnew
  intro o ho b hb hbk T x T' hcl _
  refine ⟨?_, ?_⟩
  · rintro t rfl
    exact hk' o ho b hb hbk T t T' hcl
  · rintro p rfl
    have := (classify_some hcl).1
    simp only [ProgramAccount.pubkey] at this
    rw [hbk] at this
    subst this
    exact hk o ho b hb hbk T T' hcl

/-- **C86**. For a key that is only ever a token account: a closed account is gone, and a live one is what a finalized read
shows. -/
theorem C86_read_partial (X : Codecs) (ops : List TOp) (s : TokenStore) (par : Nat → Nat) (pk : Pubkey) (a : AccountData) (k : Nat)
    (hn : ops.length < 2 ^ 31) (hd : ∀ i, par i ≤ i) (hp : TrueParents par ops) (ha : Accepted X pk ops)
    (hr : TokenStore.run X ops .empty = .ok s) (h0 : 0 < lastFinal ops) (hnew : NewestTrue ops par pk (lastFinal ops) a k)
    (ht : OnTime ops) (hc : Chained X par pk ops) (hl : LoadedFirst pk ops) (hw : NoTwinClosed X pk ops)
    (hk : OnlyToken X pk ops) :
    ∃ x, Taken X ops a x ∧ s.getAccount pk .finalized = x.toSolana s.mints (lastFinal ops) 0 := by
  obtain ⟨x, h1, h2, h3⟩ := stream_holds ops hn hd hp ht hc hl (fun _ => hw) seenKey_true ha (.inr hk) hr h0 hnew
  refine ⟨x, h1, ?_⟩
  obtain ⟨j1, j2, -⟩ := stream_only ops hn hk hr
  obtain ⟨slots, orig, inv⟩ := reach_inv hn hr
  have hs := (run_slots ops hn hp hr).1
  have hg : s.getAccount pk .finalized = s.getFinalized pk := rfl
  have e := getByPubkey_recOf inv.fin pk
  obtain ⟨pre, c, post, s0, s0', e1, hc', hr0, hr0', hcl⟩ := h1
  have hkey : a.pubkey = pk := by rw [← (classify_some hcl).1]; exact h2
  rcases (hk (.update a c) (by simp [e1]) a rfl _ _ _ hcl).1 hkey x rfl with ⟨t, rfl⟩ | rfl
  · simp only [ProgramAccount.pubkey] at h2
    subst h2
    simp only [Holding] at h3
    rw [h3] at e
    simp only [Run.ok.injEq] at e
    rw [hg, ((getFinalized_eq inv.fin t.pubkey).2.2.2.1 j1 (by simp [recOf, j2]) t e.symm).1, hs]
    rfl
  · obtain ⟨-, -, h3⟩ := h3
    rw [h3] at e
    simp only [Run.ok.injEq] at e
    rw [hg, (getFinalized_eq inv.fin pk).2.2.2.2 j1 (by simp [recOf, j2]) e.symm]
    rfl

/-- A token account converted back has the content of the one it was made from. -/
theorem token_read {X : Codecs} {p : Program} {sa : Spl.Account} {i : Nat} {t : TokenAccount} {m : MintAccount}
    {mints : AMap Nat MintAccount} (slot : Nat) (hf : TokenFits t) (hm : TokenMatches sa i t) (hp : t.program = p)
    (hi : mints.find t.mint = some m) (hk : m.pubkey = sa.mint) :
    ∃ r bs' sa', (ProgramAccount.token t).toSolana mints slot 0 = .ok (some r) ∧ r.pubkey = t.pubkey ∧ r.slot = slot ∧
      r.account.owner = (match p with | .tokenProgram => Spl.tokenId | .token2022Program => Spl.token2022Id) ∧
      HonestData X r.account.data bs' ∧ AccountLayout bs' sa' ∧ SameToken sa sa' := by
  refine ⟨_, tokenData t m.pubkey, ⟨m.pubkey, t.owner, t.amount, t.delegate.map (·.1), t.state, t.isNative,
    (t.delegate.map (·.2)).getD 0, t.closeAuthority⟩, tokenToSolana_ok hm.live hi slot 0, rfl, rfl, ?_, ⟨rfl, rfl⟩, ?_, ?_⟩
  · simp only [solanaAccount, hp]; cases p <;> rfl
  · have hpack : tokenData t m.pubkey = Spl.Account.pack ⟨m.pubkey, t.owner, t.amount, t.delegate.map (·.1), t.state,
        t.isNative, (t.delegate.map (·.2)).getD 0, t.closeAuthority⟩ := by
      unfold tokenData
      cases t.program <;> simp [hm.plain]
    rw [hpack]
    refine C45_pack_is_layout.1 _ ⟨hf.amount, hf.native, ?_⟩
    cases h : t.delegate with
    | none => simp
    | some x => simpa [h] using hf.delegate x.1 x.2 h
  · refine ⟨hk.symm, hm.owner.symm, hm.amount.symm, ?_, hm.state.symm, hm.native.symm, ?_, hm.close.symm⟩
    · cases hdl : sa.delegate with
      | none => simp [hm.noDelegate hdl]
      | some k => simp [hm.delegate k hdl]
    · intro hne
      cases hdl : sa.delegate with
      | none => exact absurd hdl hne
      | some k => simp [hm.delegate k hdl]

/-- A token account as it was classified, converted back with the mints of a later moment, has its content, if its mint is
stored then and was never closed. -/
theorem classified_read {X : Codecs} {ops : List TOp} {s : TokenStore} {a : AccountData} {x : ProgramAccount} {p : Program} {bs : Bytes}
    {sa : Spl.Account} {pre post : List TOp} {o : TOp} {s0 s0' : TokenStore} (hn : ops.length < 2 ^ 31)
    (hr : TokenStore.run X ops .empty = .ok s) (e : ops = pre ++ o :: post) (hr0 : TokenStore.run X pre .empty = .ok s0)
    (hr0' : TokenStore.run X (pre ++ [o]) .empty = .ok s0') (hcl : classify X s0.table a = .ok (some x, s0'.table))
    (ho : TokenProgramOwned a p) (hdat : HonestData X a.account.data bs) (hlay : AccountLayout bs sa) (hkm : KnownMint s sa.mint)
    (hopen : ∀ o ∈ ops, ∀ b, submittedBy o = some b → b.pubkey = sa.mint → ¬ Closes b) (slot : Nat) :
    ∃ r bs' sa', x.toSolana s.mints slot 0 = .ok (some r) ∧ r.pubkey = a.pubkey ∧ r.slot = slot ∧
      r.account.owner = a.account.owner ∧ HonestData X r.account.data bs' ∧ AccountLayout bs' sa' ∧ SameToken sa sa' := by
  have hlen : pre.length + 1 + post.length < 2 ^ 31 := by rw [e] at hn; simp at hn; omega
  have hpost : TokenStore.run X post s0' = .ok s := by
    have e' : ops = (pre ++ [o]) ++ post := by simp [e]
    rw [e'] at hr
    obtain ⟨s1, h1, h2⟩ := (storeRun_append _ _).1 hr
    rw [hr0'] at h1; cases h1; exact h2
  obtain ⟨slots0, orig0, inv0⟩ := reach_inv (by omega) hr0
  have hb0 := inv0.cbound
  obtain ⟨t, rfl⟩ : ∃ t, x = .token t := by
    have := C46_token_iff X s0.table a p bs ho hdat ⟨p, false, a.pubkey, sa.owner, (s0.table.getOrCreate sa.mint).1, sa.amount,
      sa.state, sa.delegate.map (fun k => (k, sa.delegatedAmount)), sa.isNative, sa.closeAuthority, none⟩
      (s0.table.getOrCreate sa.mint).2
    have h := this.2 ⟨rfl, rfl, sa, hlay, by constructor <;> simp_all, rfl⟩
    rw [h] at hcl
    simp only [Run.ok.injEq, Prod.mk.injEq, Option.some.injEq] at hcl
    exact ⟨_, hcl.1.symm⟩
  obtain ⟨tp, tpk, sa0, hl0, hmatch, hT⟩ := (C46_token_iff X s0.table a p bs ho hdat t _).1 hcl
  have hsa : sa0 = sa := by
    have e1 := (Spl.unpackAccount_iff _ _).2 hl0
    have e2 := (Spl.unpackAccount_iff _ _).2 hlay
    rw [e1] at e2; cases e2; rfl
  subst hsa
  obtain ⟨-, -, -, -, hc5, -⟩ := classify_inv inv0.fin (by omega) (fun _ _ _ => trivial) hcl
  obtain ⟨-, hw1, -, -⟩ := hc5 _ rfl
  have hidx : s0'.table.index.find sa0.mint = some t.mint := by
    rw [hT, hmatch.mint]
    exact (fin_getOrCreate inv0.fin sa0.mint (by omega)).2.2.2.2.1
  have hidx' := C68_stable_partial X (pre ++ [o]) post s0' s sa0.mint t.mint (by simp; omega) hr0' hpost (by
    intro o ho b hb hk
    rw [account_eq] at hb
    exact hopen o (by rw [e]; simpa using ho) b hb hk) hidx
  obtain ⟨i, m, hi, hm⟩ := hkm
  rw [hidx'] at hi; cases hi
  obtain ⟨slots, orig, inv⟩ := reach_inv hn hr
  have hmp : m.pubkey = sa0.mint := inv.fin.idx_inj _ _ _ (inv.fin.mints_idx _ m hm) hidx'
  obtain ⟨r, bs', sa', g1, g2, g3, g4, g5⟩ := token_read (X := X) slot hw1.1 hmatch tp hm hmp
  refine ⟨r, bs', sa', g1, by rw [g2, tpk], g3, ?_, g5⟩
  rw [g4, ho.2]; cases p <;> rfl

/-- The same for a token account that was taken. -/
theorem taken_read {X : Codecs} {ops : List TOp} {s : TokenStore} {a : AccountData} {x : ProgramAccount} {p : Program} {bs : Bytes}
    {sa : Spl.Account} (hn : ops.length < 2 ^ 31) (hr : TokenStore.run X ops .empty = .ok s) (hx : Taken X ops a x)
    (ho : TokenProgramOwned a p) (hdat : HonestData X a.account.data bs) (hlay : AccountLayout bs sa) (hkm : KnownMint s sa.mint)
    (hopen : ∀ o ∈ ops, ∀ b, submittedBy o = some b → b.pubkey = sa.mint → ¬ Closes b) (slot : Nat) :
    ∃ r bs' sa', x.toSolana s.mints slot 0 = .ok (some r) ∧ r.pubkey = a.pubkey ∧ r.slot = slot ∧
      r.account.owner = a.account.owner ∧ HonestData X r.account.data bs' ∧ AccountLayout bs' sa' ∧ SameToken sa sa' := by
  obtain ⟨pre, c, post, s0, s0', e, -, hr0, hr0', hcl⟩ := hx
  exact classified_read hn hr e hr0 hr0' hcl ho hdat hlay hkm hopen slot

/-- **C86**, in terms of the account contents alone: a finalized read shows the token account submitted last on the finalized
chain, with the same content, if its mint is stored and was never closed. -/
theorem C86_content_partial (X : Codecs) (ops : List TOp) (s : TokenStore) (par : Nat → Nat) (a : AccountData) (k : Nat)
    (p : Program) (bs : Bytes) (sa : Spl.Account)
    (hn : ops.length < 2 ^ 31) (hd : ∀ i, par i ≤ i) (hp : TrueParents par ops) (ha : Accepted X a.pubkey ops)
    (hr : TokenStore.run X ops .empty = .ok s) (h0 : 0 < lastFinal ops)
    (hnew : NewestTrue ops par a.pubkey (lastFinal ops) a k)
    (ht : OnTime ops) (hc : Chained X par a.pubkey ops) (hl : LoadedFirst a.pubkey ops) (hw : NoTwinClosed X a.pubkey ops)
    (hk : OnlyToken X a.pubkey ops) (ho : TokenProgramOwned a p) (hdat : HonestData X a.account.data bs)
    (hlay : AccountLayout bs sa) (hkm : KnownMint s sa.mint)
    (hopen : ∀ o ∈ ops, ∀ b, submittedBy o = some b → b.pubkey = sa.mint → ¬ Closes b) :
    ∃ r bs' sa', s.getAccount a.pubkey .finalized = .ok (some r) ∧ r.pubkey = a.pubkey ∧ r.slot = lastFinal ops ∧
      r.account.owner = a.account.owner ∧ HonestData X r.account.data bs' ∧ AccountLayout bs' sa' ∧ SameToken sa sa' := by
  obtain ⟨x, h1, h2⟩ := C86_read_partial X ops s par a.pubkey a k hn hd hp ha hr h0 hnew ht hc hl hw hk
  rw [h2]
  exact taken_read hn hr h1 ho hdat hlay hkm hopen _

/-- **C52** for histories with finalized slots. A confirmed read shows the newest state on the chain of the confirmed slot if
it is above the last finalized slot and the links between are recorded; if the newest state is not above the last finalized
slot, or there is none, the read is a finalized read. -/
theorem C52_stream_partial (X : Codecs) (ops : List TOp) (s : TokenStore) (par : Nat → Nat) (pk : Pubkey)
    (hn : ops.length < 2 ^ 31) (hd : ∀ i, par i ≤ i) (hp : TrueParents par ops) (ha : Accepted X pk ops)
    (hr : TokenStore.run X ops .empty = .ok s) (ht : OnTime ops) :
    (∀ a k, NewestTrue ops par pk (confirmedOf ops) a k → lastFinal ops < k →
      (∀ i, Ancestor par (confirmedOf ops) i → Ancestor par i k → i ≠ k → LinkNoted X ops i) →
      ∃ x, Taken X ops a x ∧ s.getAccount pk .confirmed = x.toSolana s.mints k 0) ∧
    ((∀ a k, NewestTrue ops par pk (confirmedOf ops) a k → k ≤ lastFinal ops) →
      s.getAccount pk .confirmed = s.getAccount pk .finalized) := by
  have hrec : ∀ i, lastFinal ops < i → RecordedBy (Taken X ops) (submittedAt ops pk i) (stateAt s.processed i pk) :=
    fun i hi => stream_recorded ops hn hp ha hr hi
  obtain ⟨hsort, hpar⟩ := parents_of (R := fun k p => p = par k ∧ p < k) (fun σ info c h => hp σ info c h) hr
  obtain ⟨r, h3⟩ := getAccounts_total (c := .confirmed) (fun k e p h hp => (hpar k e p h hp).2) [pk] (by simp) s.confirmedSlot
  have hco := (run_slots ops hn hp hr).2
  constructor
  · intro a k hnew hlt hl
    obtain ⟨x, h1, -, h2⟩ := newestTrue_above hd hrec hlt (fun i h1 h2 h3 =>
      stream_linked ops hn hp hr (by have := ancestor_le hd h2; omega) (hl i h1 h2 h3)) hnew
    rw [← hco] at h1
    exact ⟨x.account, h2, (getAccount_eq hsort pk (by simp) h3).1 x k h1⟩
  · intro hle
    refine (getAccount_eq hsort pk (by simp) h3).2 ?_
    intro x k hx
    rw [Token.Newest, hco] at hx
    by_cases hk : lastFinal ops < k
    · obtain ⟨-, a, h1, -⟩ := newestOn_above hd (ParentsIn.imp hpar (fun _ _ h => h.1)) hrec hk hx
      have := hle a k h1
      omega
    · have hst := newestOn_state hx
      rw [stream_cleared ops hn hp ht hr (by omega)] at hst
      simp at hst

/-! ## Concrete histories -/

/-- A property of every call and the calls before it. -/
theorem every_call {ops : List TOp} {P : List TOp → TOp → Prop} (h : ∀ n (hn : n < ops.length), P (ops.take n) ops[n]) :
    ∀ pre o post, ops = pre ++ o :: post → P pre o := by
  rintro pre o post rfl
  have := h pre.length (by simp)
  simpa using this

/-- Loading, then states of `alice` at slots 2 and 3, and one of `bob` at slot 4; slots 2 and 5 are finalized. -/
def followed : List TOp :=
  [.init mintAcct, .init (tokenAcct Toy.alice 1 1),
    .update (tokenAcct Toy.alice 2 1) .processed, .slot plainOrders ⟨2, 1, 0⟩ .confirmed, .slot plainOrders ⟨2, 1, 0⟩ .finalized,
    .update (otherAcct 3 1) .processed, .slot plainOrders ⟨3, 2, 0⟩ .confirmed,
    .update (tokenAcct Toy.bob 4 1) .processed, .slot plainOrders ⟨4, 3, 0⟩ .confirmed,
    .slot plainOrders ⟨5, 4, 0⟩ .confirmed, .slot plainOrders ⟨5, 4, 0⟩ .finalized]

theorem before_le (i : Nat) : before i ≤ i := by simp [before]

theorem followed_parents : TrueParents before followed := by
  intro σ info c hm
  simp only [followed, List.mem_cons, List.not_mem_nil, or_false, reduceCtorEq, false_or, TOp.slot.injEq] at hm
  rcases hm with ⟨-, rfl, -⟩ | ⟨-, rfl, -⟩ | ⟨-, rfl, -⟩ | ⟨-, rfl, -⟩ | ⟨-, rfl, -⟩ | ⟨-, rfl, -⟩ <;> simp [before]

/-- `otherAcct` is classified as a token account. -/
theorem classify_otherAcct (T : MintTable) (slot wv : Nat) :
    classify Toy.codecs T (otherAcct slot wv) = .ok (some (.token ⟨.tokenProgram, false, Toy.alice, Toy.bob,
      (T.getOrCreate Toy.prog).1, 99, .frozen, some (Toy.prog2, 5), none, none, none⟩), (T.getOrCreate Toy.prog).2) := by
  refine (C46_token_iff Toy.codecs T (otherAcct slot wv) .tokenProgram ({ splAccount with amount := 99 }).pack
    ⟨by simp [otherAcct, Toy.acct], rfl⟩ ⟨rfl, rfl⟩ _ _).2
    ⟨rfl, rfl, { splAccount with amount := 99 }, C45_pack_is_layout.1 _ (by constructor <;> simp [splAccount]), ?_, rfl⟩
  constructor <;> simp [splAccount]

theorem classify_mintAcct (T : MintTable) : classify Toy.codecs T mintAcct = .ok (some (.mint aMint), T) := by
  obtain ⟨T', h⟩ := (C46_mint_iff Toy.codecs T mintAcct .tokenProgram _ ⟨by decide +kernel, rfl⟩ ⟨rfl, rfl⟩ aMint).2
    ⟨rfl, rfl, _, (Spl.unpackMint_iff _ _).1 (by decide +kernel : Spl.unpackMint _ = some ⟨aMint.mintAuthority, aMint.supply, aMint.decimals, true, aMint.freezeAuthority⟩), by constructor <;> rfl⟩
  rcases (classify_some h).2.1 with ⟨e, -⟩ | ⟨t, _, e, -⟩
  · rw [h, e]
  · simp at e

theorem getOrCreate_other (T : MintTable) {m pk : Pubkey} (hne : pk ≠ m) : (T.getOrCreate m).2.index.find pk = T.index.find pk := by
  unfold MintTable.getOrCreate
  split
  · rfl
  · simp only [AMap.find_insert]
    rw [if_neg (fun e => hne e.symm)]

/-- The accounts submitted in `followed`. -/
theorem followed_accounts (o : TOp) (ho : o ∈ followed) (a : AccountData) (ha : submittedBy o = some a) :
    a = mintAcct ∨ a = otherAcct 3 1 ∨ ∃ pk slot, a = tokenAcct pk slot 1 := by
  simp only [followed, List.mem_cons, List.not_mem_nil, or_false] at ho
  rcases ho with rfl | rfl | rfl | rfl | rfl | rfl | rfl | rfl | rfl | rfl | rfl <;> cases ha
  all_goals first | exact .inl rfl | exact .inr (.inl rfl) | exact .inr (.inr ⟨_, _, rfl⟩)

theorem followed_only : OnlyToken Toy.codecs Toy.alice followed := by
  intro o ho a ha T x T' hcl
  rcases followed_accounts o ho a ha with rfl | rfl | ⟨pk, slot, rfl⟩
  · rw [classify_mintAcct] at hcl; cases hcl
    exact ⟨fun h => absurd h (by decide +kernel), id⟩
  · rw [classify_otherAcct] at hcl; cases hcl
    exact ⟨fun _ y hy => by cases hy; exact .inl ⟨_, rfl⟩, fun h => by rw [getOrCreate_other _ (by decide)]; exact h⟩
  · rw [classify_tokenAcct] at hcl; cases hcl
    exact ⟨fun _ y hy => by cases hy; exact .inl ⟨_, rfl⟩, fun h => by rw [getOrCreate_other _ (by decide)]; exact h⟩

theorem followed_open : NoTwinClosed Toy.codecs Toy.alice followed := by
  intro o ho a ha _ _ T T' hcl
  rcases followed_accounts o ho a ha with rfl | rfl | ⟨pk, slot, rfl⟩
  · rw [classify_mintAcct] at hcl; simp at hcl
  · rw [classify_otherAcct] at hcl; simp at hcl
  · rw [classify_tokenAcct] at hcl; simp at hcl

theorem followed_accepted : Accepted Toy.codecs Toy.alice followed := by
  intro pre a c post s e hc hk hr
  have hm : TOp.update a c ∈ followed := by rw [e]; simp
  rcases followed_accounts _ hm a rfl with rfl | rfl | ⟨pk, slot, rfl⟩
  · exact absurd hk (by decide +kernel)
  · refine ⟨?_, fun T => ⟨_, _, classify_otherAcct T 3 1⟩⟩
    unfold TokenStore.isTokenAccount; rw [if_pos (.inr (.inr (.inl rfl)))]
  · refine ⟨?_, fun T => ⟨_, _, classify_tokenAcct T pk slot 1⟩⟩
    unfold TokenStore.isTokenAccount; rw [if_pos (.inr (.inr (.inl rfl)))]

theorem followed_onTime : OnTime followed := by
  intro pre a c post e
  refine every_call (ops := followed) (P := fun pre o => ∀ a c, o = .update a c → c ≠ .finalized → lastFinal pre < a.slot) ?_
    pre _ post e a c rfl
  intro n hn a c
  match n, hn with
  | 0, _ | 1, _ | 3, _ | 4, _ | 6, _ | 8, _ | 9, _ | 10, _ => intro h; cases h
  | 2, _ => intro h; cases h; intro _; decide +kernel
  | 5, _ => intro h; cases h; intro _; decide +kernel
  | 7, _ => intro h; cases h; intro _; decide +kernel

theorem followed_loaded : LoadedFirst Toy.alice followed := by
  intro pre o post a e
  refine every_call (ops := followed) (P := fun pre o => AtOnce o → submittedBy o = some a → a.pubkey = Toy.alice → lastFinal pre = 0) ?_
    pre o post e
  intro n hn
  match n, hn with
  | 0, _ | 1, _ => intro _ _ _; decide +kernel
  | 2, _ | 3, _ | 4, _ | 5, _ | 6, _ | 7, _ | 8, _ | 9, _ | 10, _ => intro h; exact absurd h (by simp [followed, AtOnce])

theorem ancestor_before {s i : Nat} (h : Ancestor before s i) : i ≤ s := ancestor_le before_le h

theorem followed_chained : Chained Toy.codecs before Toy.alice followed := by
  intro pre σ info post e
  refine every_call (ops := followed) (P := fun pre o => ∀ σ info, o = .slot σ info .finalized → lastFinal pre < info.slot →
    (0 < lastFinal pre → Ancestor before info.slot (lastFinal pre)) ∧
    ∀ i k, Ancestor before info.slot i → Ancestor before i k → i ≠ k → lastFinal pre < k → submittedAt pre Toy.alice k ≠ [] →
      (i = info.slot → Known Toy.codecs pre i) ∧ (i ≠ info.slot → LinkNoted Toy.codecs pre i)) ?_ pre _ post e σ info rfl
  intro n hn σ info
  match n, hn with
  | 0, _ | 1, _ | 2, _ | 3, _ | 5, _ | 6, _ | 7, _ | 8, _ | 9, _ => intro h; cases h
  | 4, _ =>
    intro h; cases h
    intro _
    have hF : lastFinal (followed.take 4) = 0 := by decide +kernel
    refine ⟨fun h => by rw [hF] at h; omega, ?_⟩
    intro i k h1 h2 h3 h4 h5
    have e1 := ancestor_before h1
    have e2 := ancestor_before h2
    simp only at e1
    rw [hF] at h4
    have : k = 1 := by omega
    subst this
    exact absurd (by decide +kernel) h5
  | 10, _ =>
    intro h; cases h
    intro _
    have hF : lastFinal (followed.take 10) = 2 := by decide +kernel
    refine ⟨fun _ => by rw [hF]; exact .up (.up (.up .here)), ?_⟩
    intro i k h1 h2 h3 h4 h5
    have e1 := ancestor_before h1
    have e2 := ancestor_before h2
    simp only at e1
    rw [hF] at h4
    refine ⟨fun _ => ?_, fun hi => ?_⟩
    · subst i; exact .inl ⟨plainOrders, ⟨5, 4, 0⟩, .confirmed, by simp [followed], rfl⟩
    · simp only at hi
      have : i = 4 := by omega
      subst this
      refine ⟨followed.take 8, plainOrders, ⟨4, 3, 0⟩, .confirmed, [.slot plainOrders ⟨5, 4, 0⟩ .confirmed], rfl, rfl,
        .inr ⟨tokenAcct Toy.bob 4 1, .processed, by simp [followed], by simp, rfl, parses_tokenAcct _ _ _⟩,
        .inr ⟨rfl, by decide +kernel⟩⟩

theorem followed_run : TokenStore.run Toy.codecs followed .empty = .ok (okStore (TokenStore.run Toy.codecs followed .empty)) := by
  decide +kernel

theorem followed_newest : NewestTrue followed before Toy.alice (lastFinal followed) (otherAcct 3 1) 3 := by
  have : lastFinal followed = 5 := by decide +kernel
  rw [this]
  exact .up (by decide +kernel) (.up (by decide +kernel) (.here ⟨[], [], by decide +kernel, by simp, by simp⟩))

example : ∃ r bs' sa', (okStore (TokenStore.run Toy.codecs followed .empty)).getAccount Toy.alice .finalized = .ok (some r) ∧
    r.pubkey = Toy.alice ∧ r.slot = 5 ∧ r.account.owner = Spl.tokenId ∧ HonestData Toy.codecs r.account.data bs' ∧
    AccountLayout bs' sa' ∧ SameToken { splAccount with amount := 99 } sa' := by
  refine C86_content_partial Toy.codecs followed _ before (otherAcct 3 1) 3 .tokenProgram ({ splAccount with amount := 99 }).pack
    { splAccount with amount := 99 } (by decide) before_le followed_parents followed_accepted followed_run (by decide +kernel)
    followed_newest followed_onTime followed_chained followed_loaded followed_open followed_only
    ⟨by simp [otherAcct, Toy.acct], rfl⟩ ⟨rfl, rfl⟩ (C45_pack_is_layout.1 _ (by constructor <;> simp [splAccount]))
    ⟨0, aMint, by decide +kernel, by decide +kernel⟩ ?_
  intro o ho b hb hk hcl
  rcases followed_accounts o ho b hb with rfl | rfl | ⟨pk, slot, rfl⟩
  · rcases hcl with h | h
    · exact absurd h (by decide +kernel)
    · exact absurd rfl h.1
  · exact absurd hk (by decide +kernel)
  · revert hcl; simp [Closes, tokenAcct, Toy.acct]

example : ∃ x, Taken Toy.codecs followed (otherAcct 3 1) x ∧
    (okStore (TokenStore.run Toy.codecs followed .empty)).getAccount Toy.alice .confirmed =
      (okStore (TokenStore.run Toy.codecs followed .empty)).getAccount Toy.alice .finalized := by
  obtain ⟨x, hx, -⟩ := C86_holds_partial Toy.codecs followed _ before Toy.alice _ _ (by decide) before_le followed_parents
    followed_accepted followed_run (by decide +kernel) followed_newest followed_onTime followed_chained followed_loaded
    followed_open (.inr followed_only)
  refine ⟨x, hx, (C52_stream_partial Toy.codecs followed _ before Toy.alice (by decide) before_le followed_parents
    followed_accepted followed_run followed_onTime).2 ?_⟩
  intro a k h
  have h1 : lastFinal followed = confirmedOf followed := by decide +kernel
  have h2 := ancestor_le before_le (ancestor_of_newest h)
  omega

/-- A key with the first four bytes of the mint. -/
def mintTwin : Pubkey := ⟨Toy.prog.bytes.take 31 ++ [7], by decide⟩

/-- A token account is loaded; then the mint changes at slot 1, while the token account, whose key starts with the same four
bytes, is closed; slot 1 is finalized. -/
def twinCloses : List TOp :=
  [.init (tokenAcct mintTwin 0 0), .update mintAcct .processed, .update (closedAcct mintTwin 1 2) .processed,
    .slot plainOrders ⟨1, 0, 1⟩ .finalized]

theorem twinCloses_own {o : TOp} (ho : o ∈ twinCloses) {a : AccountData} (ha : submittedBy o = some a) (hk : a.pubkey = Toy.prog) :
    a = mintAcct := by
  simp only [twinCloses, List.mem_cons, List.not_mem_nil, or_false] at ho
  rcases ho with rfl | rfl | rfl | rfl <;> cases ha <;> first | rfl | exact absurd hk (by decide +kernel)

example : ∃ x, Taken Toy.codecs twinCloses mintAcct x ∧ x.pubkey = Toy.prog ∧
    Holding (okStore (TokenStore.run Toy.codecs twinCloses .empty)) x := by
  have hF : lastFinal twinCloses = 1 := by decide +kernel
  refine C86_mints_partial Toy.codecs twinCloses _ before Toy.prog mintAcct 1 (by decide) before_le ?_ ?_ (by decide +kernel)
    (by rw [hF]; omega) ?_ ?_ ?_ ?_ ?_ ?_
  · intro σ info c hm
    simp only [twinCloses, List.mem_cons, List.not_mem_nil, or_false, reduceCtorEq, false_or, TOp.slot.injEq] at hm
    obtain ⟨-, rfl, -⟩ := hm
    simp [before]
  · intro pre a c post s e hc hk hr
    rw [twinCloses_own (o := .update a c) (by rw [e]; simp) rfl hk]
    exact ⟨by unfold TokenStore.isTokenAccount; rw [if_pos (.inr (.inr (.inl rfl)))], fun T => ⟨_, _, classify_mintAcct T⟩⟩
  · rw [hF]
    exact .here ⟨[], [], by decide +kernel, by simp, by simp⟩
  · intro pre a c post e
    refine every_call (ops := twinCloses) (P := fun pre o => ∀ a c, o = .update a c → c ≠ .finalized → lastFinal pre < a.slot) ?_
      pre _ post e a c rfl
    intro n hn a c
    match n, hn with
    | 0, _ | 3, _ => intro h; cases h
    | 1, _ | 2, _ => intro h; cases h; intro _; decide +kernel
  · intro pre σ info post e hlt
    have hi : info.slot = 1 := by
      have hm : TOp.slot σ info .finalized ∈ twinCloses := by rw [e]; simp
      simp only [twinCloses, List.mem_cons, List.not_mem_nil, or_false, reduceCtorEq, false_or, TOp.slot.injEq] at hm
      rw [hm.2.1]
    rw [hi] at hlt ⊢
    refine ⟨fun h => by omega, ?_⟩
    intro i k h1 h2 h3 h4 _
    have e1 := ancestor_before h1
    have e2 := ancestor_before h2
    omega
  · intro pre o post a e
    refine every_call (ops := twinCloses) (P := fun pre o => AtOnce o → submittedBy o = some a → a.pubkey = Toy.prog → lastFinal pre = 0) ?_
      pre o post e
    intro n hn
    match n, hn with
    | 0, _ => intro _ _ _; decide +kernel
    | 1, _ | 2, _ | 3, _ => intro h; exact absurd h (by simp [twinCloses, AtOnce])
  · intro o ho a ha hk T T' hcl
    rw [twinCloses_own ho ha hk, classify_mintAcct] at hcl
    simp at hcl
  · intro o ho a ha hk T t T' hcl
    rw [twinCloses_own ho ha hk, classify_mintAcct] at hcl
    simp at hcl

/-- Slot 2 is finalized; then a state of `alice` for its parent arrives; then slot 3 is finalized. -/
def lateState : List TOp :=
  [.init mintAcct, .update (tokenAcct Toy.bob 2 1) .processed, .slot plainOrders ⟨2, 1, 0⟩ .finalized,
    .update (tokenAcct Toy.alice 1 1) .processed, .update (tokenAcct Toy.bob 3 1) .processed,
    .slot plainOrders ⟨3, 2, 0⟩ .finalized]

/-- The full claim is false: a state that arrives after a younger slot was finalized is lost. -/
theorem C86_refuted : ¬ C86_statement := by
  intro h
  have hr : TokenStore.run Toy.codecs lateState .empty = .ok (okStore (TokenStore.run Toy.codecs lateState .empty)) := by
    decide +kernel
  have hF : lastFinal lateState = 3 := by decide +kernel
  obtain ⟨x, ⟨pre, c, post, s0, s0', -, -, -, -, hcl⟩, hh⟩ := h Toy.codecs lateState _ before Toy.alice (tokenAcct Toy.alice 1 1) 1
    before_le (by
      intro σ info c hm
      simp only [lateState, List.mem_cons, List.not_mem_nil, or_false, reduceCtorEq, false_or, TOp.slot.injEq] at hm
      rcases hm with ⟨-, rfl, -⟩ | ⟨-, rfl, -⟩ <;> simp [before])
    (by
      intro pre a c post s e _ _ _
      have hm : TOp.update a c ∈ lateState := by rw [e]; simp
      have : ∃ pk slot, a = tokenAcct pk slot 1 := by
        simp only [lateState, List.mem_cons, List.not_mem_nil, or_false, reduceCtorEq, false_or, TOp.update.injEq] at hm
        rcases hm with ⟨rfl, -⟩ | ⟨rfl, -⟩ | ⟨rfl, -⟩ <;> exact ⟨_, _, rfl⟩
      obtain ⟨pk, slot, rfl⟩ := this
      refine ⟨?_, fun T => ⟨_, _, classify_tokenAcct T pk slot 1⟩⟩
      unfold TokenStore.isTokenAccount; rw [if_pos (.inr (.inr (.inl rfl)))]) hr (by rw [hF]; omega)
    (by rw [hF]; exact .up (by decide +kernel) (.up (by decide +kernel) (.here ⟨[], [], by decide +kernel, by simp, by simp⟩)))
  rw [classify_tokenAcct] at hcl
  simp only [Run.ok.injEq, Prod.mk.injEq, Option.some.injEq] at hcl
  obtain ⟨rfl, -⟩ := hcl
  simp only [Holding] at hh
  have : (okStore (TokenStore.run Toy.codecs lateState .empty)).tokens.getByPubkey Toy.alice = .ok none := by decide +kernel
  rw [this] at hh
  simp at hh

/-- The same finalized read, and a slot finalized a second time. -/
example : SameFinalized (okStore (TokenStore.run Toy.codecs followed .empty))
    (match (okStore (TokenStore.run Toy.codecs followed .empty)).processSlot plainOrders ⟨3, 2, 0⟩ .finalized with
      | .ok (_, s) => s | _ => .empty) Toy.alice := by
  refine C85_slot_partial Toy.codecs followed _ _ before plainOrders ⟨3, 2, 0⟩
    (match (okStore (TokenStore.run Toy.codecs followed .empty)).processSlot plainOrders ⟨3, 2, 0⟩ .finalized with
      | .ok (n, _) => n | _ => []) (by decide) followed_onTime followed_run ?_ (by decide +kernel) (by decide +kernel) _
  intro σ info c hm
  simp only [List.mem_append, List.mem_cons, List.not_mem_nil, or_false, TOp.slot.injEq] at hm
  rcases hm with hm | ⟨-, rfl, -⟩
  · exact followed_parents σ info c hm
  · simp [before]

end LAM.Props
