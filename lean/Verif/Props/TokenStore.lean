import Verif.Lemmas.TokenStoreRead
import Verif.Spec.TokenStore
import Mathlib.Data.List.Dedup
/-!
# The token program store, finalized states: C51, C54, C55, C59
-/
namespace LAM.Props
open Spec Token
open TokenStore (TOp)

/-! ## Example accounts -/

/-- One iteration order. -/
def plainOrders : Orders where
  set := List.dedup
  set_nodup := List.nodup_dedup
  set_mem := fun _ _ => List.mem_dedup
  final := id
  final_perm := fun _ => List.Perm.refl _

/-- The mint `aMint` as submitted. -/
def mintAcct : AccountData := mintToSolana aMint 1 1

/-- The token account `splAccount` of the mint `aMint` (owner `bob`). -/
def tokenAcct (pk : Pubkey) (slot wv : Nat) : AccountData := Toy.acct pk Spl.tokenId 7 slot wv splAccount.pack

/-- A multisig of `alice` and `bob`. -/
def multisigAcct (pk : Pubkey) : AccountData :=
  Toy.acct pk Spl.tokenId 9 1 1 (Spl.Multisig.pack ⟨1, 2, true, [Toy.alice, Toy.bob] ++ List.replicate 9 Pubkey.default⟩)

/-- A closed account. -/
def closedAcct (pk : Pubkey) (slot wv : Nat) : AccountData := Toy.acct pk Spl.tokenId 0 slot wv []

def okStore (r : Run TokenStore) : TokenStore := match r with | .ok s => s | _ => .empty

/-- The store after `aMint` and the token account of `alice` were loaded. -/
def loaded : TokenStore := okStore (TokenStore.run Toy.codecs [.init mintAcct, .init (tokenAcct Toy.alice 1 1)] .empty)

theorem loaded_eq : TokenStore.run Toy.codecs [.init mintAcct, .init (tokenAcct Toy.alice 1 1)] .empty = .ok loaded := by
  decide +kernel

example : loaded.getAccount Toy.alice .finalized ≠ .ok none := by decide +kernel

/-! ## Reading back what was submitted -/

/-- **C51**, the full claim: a valid token account of a known mint, submitted as finalized, is read back with the same
content. -/
def C51_statement : Prop :=
  ∀ (X : Codecs) (ops : List TOp) (s s' : TokenStore) (a : AccountData) (p : Program) (bs : Bytes) (sa : Spl.Account)
    (ext : Bytes) (b : Bool), X.Lawful → ops.length < 2 ^ 31 - 1 → TokenStore.run X ops .empty = .ok s →
    TokenProgramOwned a p → HonestData X a.account.data bs → TokenContent bs sa ext → (ext ≠ [] → p = .token2022Program) →
    KnownMint s sa.mint → s.updateAccount X a .finalized = .ok (b, s') →
    ∃ r bs' sa', s'.getAccount a.pubkey .finalized = .ok (some r) ∧ r.account.owner = a.account.owner ∧
      HonestData X r.account.data bs' ∧ TokenContent bs' sa' ext ∧ SameToken sa sa'

theorem layout_content {bs : Bytes} {a : Spl.Account} (h : AccountLayout bs a) : TokenContent bs a [] := by
  have := h.length
  refine ⟨?_, by simp; omega, .inl rfl⟩
  rw [List.take_of_length_le (by omega)]
  exact h

/-- **C51**. A token account without extensions is read back with the same content and the lamports that make 165 bytes
rent-exempt, if no multisig and no mint is stored
under its public key.  (Submission through `initilize_or_update_account` is the same, see `C51_init`.) -/
theorem C51_token_partial (X : Codecs) (ops : List TOp) (s : TokenStore) (a : AccountData) (p : Program) (bs : Bytes)
    (sa : Spl.Account) (hn : ops.length < 2 ^ 31 - 1) (hr : TokenStore.run X ops .empty = .ok s) (ho : TokenProgramOwned a p)
    (hd : HonestData X a.account.data bs) (hl : AccountLayout bs sa) (hk : KnownMint s sa.mint)
    (h1 : s.multisigs.find a.pubkey = none) (h2 : s.table.index.find a.pubkey = none) :
    ∃ s' r bs' sa', s.updateAccount X a .finalized = .ok (true, s') ∧ s'.getAccount a.pubkey .finalized = .ok (some r) ∧
      r.pubkey = a.pubkey ∧ r.account.owner = a.account.owner ∧ r.account.lamports = 2039280 ∧ HonestData X r.account.data bs' ∧
      AccountLayout bs' sa' ∧ SameToken sa sa' := by
  obtain ⟨slots, orig, inv⟩ := reach_inv (by omega) hr
  obtain ⟨i, m, hi, hm⟩ := hk
  have hmp : m.pubkey = sa.mint := inv.fin.idx_inj _ _ _ (inv.fin.mints_idx i m hm) hi
  have hg : s.table.getOrCreate sa.mint = (i, s.table) := by simp [MintTable.getOrCreate, hi]
  obtain ⟨t, ht⟩ : ∃ t, classify X s.table a = .ok (some (.token t), s.table) := by
    refine ⟨⟨p, false, a.pubkey, sa.owner, i, sa.amount, sa.state, sa.delegate.map (fun k => (k, sa.delegatedAmount)),
      sa.isNative, sa.closeAuthority, none⟩, (C46_token_iff X s.table a p bs ho hd _ _).2 ⟨rfl, rfl, sa, hl, ?_, by rw [hg]⟩⟩
    rw [hg]
    constructor <;> simp_all
  obtain ⟨tp, tpk, sa0, hl0, hmatch, -⟩ := (C46_token_iff X s.table a p bs ho hd t _).1 ht
  have hsa : sa0 = sa := by
    have e1 := (Spl.unpackAccount_iff _ _).2 hl0
    have e2 := (Spl.unpackAccount_iff _ _).2 hl
    rw [e1] at e2; cases e2; rfl
  subst hsa
  have hb := inv.bound
  have hcb := inv.cbound
  obtain ⟨-, hc2, -, -, hc5, -⟩ := classify_inv inv.fin (by omega) (fun _ _ _ => trivial) ht
  obtain ⟨-, hw1, hw2, hw3⟩ := hc5 _ rfl
  obtain ⟨s', slots', orig', e1, e2, -, e3, e4, e5, -, -, e6, e7⟩ := add_token inv.fin hw1.1 hw1.2 hw2 hw3 (by omega)
  have hmt : s'.mints.find t.mint = some m := by rw [e4, hmatch.mint, hg]; exact hm
  have hread := (getFinalized_eq e2 a.pubkey).2.2.2.1 (by simp [recOf, e5, h1]) (by simp [recOf, e3, h2]) t
    (by simp [recOf, e7, tpk])
  rw [tokenToSolana_ok hread.2 hmt] at hread
  refine ⟨s', _, tokenData t m.pubkey, ⟨m.pubkey, t.owner, t.amount, t.delegate.map (·.1), t.state, t.isNative,
    (t.delegate.map (·.2)).getD 0, t.closeAuthority⟩, ?_, hread.1, tpk, ?_, ?_, ⟨rfl, rfl⟩, ?_, ?_⟩
  · have : ({ s with table := s.table } : TokenStore) = s := rfl
    rw [update_finalized ho ht, this, e1]; rfl
  · simp only [solanaAccount, tp, ho.2]; cases p <;> rfl
  · simp only [solanaAccount]
    unfold tokenData
    cases t.program <;> simp [hmatch.plain, Spl.length_pack, Spl.rentMinimum]
  · have hpack : tokenData t m.pubkey = Spl.Account.pack ⟨m.pubkey, t.owner, t.amount, t.delegate.map (·.1), t.state,
        t.isNative, (t.delegate.map (·.2)).getD 0, t.closeAuthority⟩ := by
      unfold tokenData
      cases t.program <;> simp [hmatch.plain]
    rw [hpack]
    refine C45_pack_is_layout.1 _ ⟨hw1.1.amount, hw1.1.native, ?_⟩
    cases h : t.delegate with
    | none => simp
    | some x => simpa [h] using hw1.1.delegate x.1 x.2 h
  · refine ⟨hmp.symm, hmatch.owner.symm, hmatch.amount.symm, ?_, hmatch.state.symm, hmatch.native.symm, ?_, hmatch.close.symm⟩
    · cases hdl : sa0.delegate with
      | none => simp [hmatch.noDelegate hdl]
      | some k => simp [hmatch.delegate k hdl]
    · intro hne
      cases hdl : sa0.delegate with
      | none => exact absurd hdl hne
      | some k => simp [hmatch.delegate k hdl]

example : ∃ s' r bs' sa', loaded.updateAccount Toy.codecs (tokenAcct Toy.bob 2 2) .finalized = .ok (true, s') ∧
    s'.getAccount Toy.bob .finalized = .ok (some r) ∧ r.pubkey = Toy.bob ∧ r.account.owner = Spl.tokenId ∧
    r.account.lamports = 2039280 ∧ HonestData Toy.codecs r.account.data bs' ∧ AccountLayout bs' sa' ∧ SameToken splAccount sa' :=
  C51_token_partial Toy.codecs _ loaded (tokenAcct Toy.bob 2 2) .tokenProgram splAccount.pack splAccount (by decide) loaded_eq
    ⟨by decide, rfl⟩ ⟨rfl, rfl⟩ (C45_pack_is_layout.1 _ (by constructor <;> simp [splAccount]))
    ⟨0, aMint, by decide +kernel, by decide +kernel⟩ (by decide +kernel) (by decide +kernel)

/-- **C51**. Both ways of submitting a finalized account do the same. -/
theorem C51_init (X : Codecs) (s : TokenStore) (a : AccountData) :
    s.initAccount X a = (do return (← s.updateAccount X a .finalized).2) := init_eq_update X s a

/-- **C51**. A mint without extensions is read back with the same content and lamports, if no multisig is stored under its
public key. -/
theorem C51_mint_partial (X : Codecs) (ops : List TOp) (s : TokenStore) (a : AccountData) (p : Program) (bs : Bytes)
    (sm : Spl.Mint) (hn : ops.length < 2 ^ 31 - 1) (hr : TokenStore.run X ops .empty = .ok s) (ho : TokenProgramOwned a p)
    (hd : HonestData X a.account.data bs) (hl : MintLayout bs sm) (h1 : s.multisigs.find a.pubkey = none) :
    ∃ s' r bs', s.updateAccount X a .finalized = .ok (true, s') ∧ s'.getAccount a.pubkey .finalized = .ok (some r) ∧
      r.pubkey = a.pubkey ∧ r.account.owner = a.account.owner ∧ r.account.lamports = a.account.lamports ∧
      HonestData X r.account.data bs' ∧ MintLayout bs' sm := by
  obtain ⟨slots, orig, inv⟩ := reach_inv (by omega) hr
  obtain ⟨T, hT⟩ := (C46_mint_iff X s.table a p bs ho hd (mintOf a p sm none)).2
    ⟨rfl, rfl, sm, hl, by constructor <;> rfl⟩
  have hT' : T = s.table := by
    obtain ⟨-, h, -⟩ := classify_some hT
    rcases h with ⟨h, -⟩ | ⟨t, mint, h, -⟩
    · exact h
    · simp at h
  subst hT'
  have hcb := inv.cbound
  obtain ⟨s', i, e1, e2, -, -, e3, e4, -, -, -, -, e5, e6⟩ := add_mint inv.fin (mintOf a p sm none) (by omega)
  have hread := (getFinalized_eq e2 a.pubkey).2.1 (by simp [recOf, e4, h1]) (mintOf a p sm none)
    (by simp [recOf, e5, e6, mintOf])
  have hs : sm.supply < 2 ^ 64 := by rw [← hl.supply]; exact field_lt _ _ 8
  refine ⟨s', _, mintBytes (mintOf a p sm none), ?_, hread, rfl, ?_, rfl, ⟨rfl, rfl⟩, ?_⟩
  · have : ({ s with table := s.table } : TokenStore) = s := rfl
    rw [update_finalized ho hT, this, e1]; rfl
  · simp only [mintToSolana, solanaAccount, mintOf, ho.2]; cases p <;> rfl
  · have hpack : mintBytes (mintOf a p sm none) = Spl.Mint.pack sm := by
      unfold mintBytes
      cases p <;> rfl
    rw [hpack]
    exact C45_pack_is_layout.2.1 _ hs

example : ∃ s' r bs', loaded.updateAccount Toy.codecs mintAcct .finalized = .ok (true, s') ∧
    s'.getAccount Toy.prog .finalized = .ok (some r) ∧ r.pubkey = Toy.prog ∧ r.account.owner = Spl.tokenId ∧
    r.account.lamports = 5 ∧ HonestData Toy.codecs r.account.data bs' ∧ MintLayout bs' ⟨some Toy.bob, 1000, 6, true, none⟩ :=
  C51_mint_partial Toy.codecs _ loaded mintAcct .tokenProgram (mintBytes aMint) ⟨some Toy.bob, 1000, 6, true, none⟩ (by decide) loaded_eq
    ⟨by decide, rfl⟩ ⟨rfl, rfl⟩ (C45_pack_is_layout.2.1 _ (by decide)) (by decide +kernel)

/-- The store after `alice` was a multisig. -/
def multisigFirst : TokenStore := okStore (TokenStore.run Toy.codecs [.init mintAcct, .init (multisigAcct Toy.alice)] .empty)

/-- The full claim is false: a key stored as a multisig before is still read as the multisig. -/
theorem C51_refuted : ¬ C51_statement := by
  intro h
  have h0 : TokenStore.run Toy.codecs [.init mintAcct, .init (multisigAcct Toy.alice)] .empty = .ok multisigFirst := by
    decide +kernel
  obtain ⟨s', hs'⟩ : ∃ s', multisigFirst.updateAccount Toy.codecs (tokenAcct Toy.alice 2 2) .finalized = .ok (true, s') ∧
      (match s'.getAccount Toy.alice .finalized with | .ok (some r) => r.account.data.len | _ => 0) = 355 := by
    refine ⟨(match multisigFirst.updateAccount Toy.codecs (tokenAcct Toy.alice 2 2) .finalized with
      | .ok (_, s) => s | _ => .empty), ?_, ?_⟩ <;> decide +kernel
  obtain ⟨r, bs', sa', h1, -, h2, h3, -⟩ := h Toy.codecs _ multisigFirst s' (tokenAcct Toy.alice 2 2) .tokenProgram splAccount.pack
    splAccount [] true Toy.lawful (by decide) h0
    ⟨by decide, rfl⟩ ⟨rfl, rfl⟩ (layout_content (C45_pack_is_layout.1 _ (by constructor <;> simp [splAccount]))) (by simp)
    ⟨0, aMint, by decide +kernel, by decide +kernel⟩ hs'.1
  have e1 : s'.getAccount Toy.alice .finalized = .ok (some r) := h1
  rw [e1] at hs'
  have e2 := h3.base.length
  have e3 := h3.rest
  have e4 := congrArg List.length e3
  have e5 : r.account.data.len = 355 := hs'.2
  rw [h2.2] at e5
  simp at e4
  omega

/-- The full claim is false for Token-2022 accounts with extensions: they are not stored at all. -/
theorem C51_extended_refuted (X : Codecs) (s s' : TokenStore) (a : AccountData) (bs : Bytes) (b : Bool)
    (ho : TokenProgramOwned a .token2022Program) (hd : HonestData X a.account.data bs) (hl : 165 < bs.length)
    (h355 : bs.length ≠ 355) (c : Commitment) (h : s.updateAccount X a c = .ok (b, s')) : b = false ∧ s' = s := by
  unfold TokenStore.updateAccount at h
  rw [isToken_owned ho, Run.ok_bind, C45_extended_rejected X s.table a bs ho hd hl h355] at h
  simp only [Bool.not_true, Bool.false_eq_true, if_false, Run.ok_bind, Run.pure_eq, Run.ok.injEq, Prod.mk.injEq] at h
  exact ⟨h.1.symm, h.2.symm⟩

example : (loaded.updateAccount Toy.codecs (Toy.acct Toy.bob Spl.token2022Id 7 2 2 (splAccount.pack ++ [2, 7, 0, 0, 0])) .finalized) =
    .ok (false, loaded) := by decide +kernel

/-! ## Finalization -/

theorem holding_of_rec {Q : ProgramAccount → Prop} {s s' : TokenStore} {slots slots' orig' : List TokenAccount}
    (h' : Fin Q s' slots' orig') {x : ProgramAccount} (hr : recOf s' slots' x.pubkey = (recOf s slots x.pubkey).apply x)
    (hdel : ∀ pk, x = .deleted pk → s.multisigs.find pk = none ∧
      ((recOf s slots pk).mint = none ∨ (recOf s slots pk).token = none)) : Holding s' x := by
  cases x with
  | token t =>
    simp only [ProgramAccount.pubkey] at hr
    simp only [Holding]
    rw [getByPubkey_recOf h', hr]; rfl
  | mint m =>
    simp only [ProgramAccount.pubkey] at hr
    have := congrArg Rec.mint hr
    simp only [recOf, Rec.apply, Option.map_eq_some_iff] at this
    obtain ⟨i, h1, h2⟩ := this
    exact ⟨i, h1, h2⟩
  | multisig m pk =>
    simp only [ProgramAccount.pubkey] at hr
    have := congrArg Rec.multi hr
    simp only [recOf, Rec.apply] at this
    exact this
  | deleted pk =>
    obtain ⟨d1, d2⟩ := hdel pk rfl
    replace hr : recOf s' slots' pk = (recOf s slots pk).apply (.deleted pk) := hr
    unfold Rec.apply at hr
    simp only [Holding]
    rw [getByPubkey_recOf h']
    by_cases hm : (recOf s slots pk).mint.isSome = true
    · rw [if_pos hm] at hr
      have e1 := congrArg Rec.mint hr
      have e2 := congrArg Rec.multi hr
      have e3 := congrArg Rec.token hr
      simp only [recOf, Option.map_eq_none_iff] at e1 e2
      refine ⟨e1, by rw [e2]; exact d1, ?_⟩
      rcases d2 with d2 | d2
      · rw [d2] at hm; simp at hm
      · rw [e3]; simp only [d2]
    · rw [if_neg hm] at hr
      have e1 := congrArg Rec.mint hr
      have e2 := congrArg Rec.multi hr
      have e3 := congrArg Rec.token hr
      have hm' : (recOf s slots pk).mint = none := by simpa using hm
      simp only [hm'] at e1
      simp only [recOf, Option.map_eq_none_iff] at e1 e2
      exact ⟨e1, by rw [e2]; exact d1, by rw [e3]⟩

theorem same_of_rec {Q Q' : ProgramAccount → Prop} {s s' : TokenStore} {slots orig slots' orig' : List TokenAccount} (h : Fin Q s slots orig)
    (h' : Fin Q' s' slots' orig') {pk : Pubkey} (hr : recOf s' slots' pk = recOf s slots pk) : SameFinalized s s' pk := by
  refine ⟨congrArg Rec.multi hr, congrArg Rec.mint hr, ?_⟩
  rw [getByPubkey_recOf h, getByPubkey_recOf h', hr]

/-- The table of waiting states after the notification is noted: a newer finalized slot records its parent. -/
theorem noted_find (s : TokenStore) (info : SlotInfo) (k : Nat) :
    BMap.find (noted s info s.finalizedSlot) k =
      if s.finalizedSlot < info.slot ∧ info.slot = k then
        some (match BMap.find s.processed k with | some e => ⟨e.accounts, some info.parent⟩ | none => ⟨[], none⟩)
      else BMap.find s.processed k := by
  unfold noted ProcStore.updateSlotInfo
  by_cases h : s.finalizedSlot < info.slot
  · by_cases h2 : info.slot = k
    · subst h2
      rw [if_pos h, if_pos ⟨h, rfl⟩]
      cases hf : BMap.find s.processed info.slot <;> simp [BMap.find_insert]
    · rw [if_pos h, if_neg (fun e => h2 e.2)]
      cases hf : BMap.find s.processed info.slot <;> simp [BMap.find_insert, h2]
  · rw [if_neg h, if_neg (fun e => h e.1)]

/-- **C54**, the full claim: finalization moves exactly the newest state of every account on the recorded chain. -/
def C54_statement : Prop :=
  ∀ (X : Codecs) (ops : List TOp) (s s' : TokenStore) (σ : Orders) (info : SlotInfo) (notes : List AccountData),
    ops.length < 2 ^ 31 - 1 → TokenStore.run X ops .empty = .ok s → s.processSlot σ info .finalized = .ok (notes, s') →
    (∀ pk x k, NewestOn (noted s info s.finalizedSlot) pk info.slot x k → Holding s' x.account) ∧
    (∀ pk, (∀ x k, ¬ NewestOn (noted s info s.finalizedSlot) pk info.slot x k) → SameFinalized s s' pk)

/-- **C54**. The newest state of `pk` on the recorded chain of the finalized slot becomes its finalized state, and accounts
without a state on the chain keep theirs — for every iteration order, provided no other account with the same first four
bytes is deleted in the same step and (for a deletion) `pk` is not stored as a multisig or as mint and token at once. -/
theorem C54_newest_partial (X : Codecs) (ops : List TOp) (s s' : TokenStore) (σ : Orders) (info : SlotInfo)
    (notes : List AccountData) (hn : ops.length < 2 ^ 31 - 1) (hr : TokenStore.run X ops .empty = .ok s)
    (hs : s.processSlot σ info .finalized = .ok (notes, s')) (pk : Pubkey)
    (hno : ∀ p x k, p ≠ pk → prefix4 p = prefix4 pk → NewestOn (noted s info s.finalizedSlot) p info.slot x k →
      x.account ≠ .deleted p) :
    (∀ x k, NewestOn (noted s info s.finalizedSlot) pk info.slot x k →
      (x.account = .deleted pk → s.multisigs.find pk = none ∧
        (s.table.index.find pk = none ∨ s.tokens.getByPubkey pk = .ok none)) → Holding s' x.account) ∧
    ((∀ x k, ¬ NewestOn (noted s info s.finalizedSlot) pk info.slot x k) → SameFinalized s s' pk) := by
  obtain ⟨slots, orig, inv⟩ := reach_inv (by omega) hr
  obtain ⟨slots', orig', inv', -, -, -, h, -⟩ := finalized_spec inv hn hs
  obtain ⟨h1, h2⟩ := h pk hno
  constructor
  · intro x k hx hdel
    have hk : x.account.pubkey = pk := by
      have hp : ProcOk (Waiting (fun _ => True) s.table.counter) (noted s info s.finalizedSlot) := by
        unfold noted; split
        · exact (inv.proc.updateSlotInfo info).1
        · exact inv.proc
      exact (newest_good hp hx).1
    refine holding_of_rec (s := s) (slots := slots) inv'.fin (by rw [hk]; exact h1 x k hx) ?_
    intro p hp
    rw [hp] at hk
    simp only [ProgramAccount.pubkey] at hk
    subst hk
    obtain ⟨d1, d2⟩ := hdel hp
    refine ⟨d1, ?_⟩
    rcases d2 with d2 | d2
    · left; simp [recOf, d2]
    · right
      rw [getByPubkey_recOf inv.fin] at d2
      simpa using d2
  · intro hx
    exact same_of_rec inv.fin inv'.fin (h2 hx)

/-- **C54**. A mint or multisig that is the newest state of its key on the chain becomes its finalized state, and a key without a
state on the chain keeps its mint and its multisig, whatever else is deleted in the same step. -/
theorem C54_mints_partial (X : Codecs) (ops : List TOp) (s s' : TokenStore) (σ : Orders) (info : SlotInfo)
    (notes : List AccountData) (hn : ops.length < 2 ^ 31 - 1) (hr : TokenStore.run X ops .empty = .ok s)
    (hs : s.processSlot σ info .finalized = .ok (notes, s')) (pk : Pubkey) :
    (∀ x k, NewestOn (noted s info s.finalizedSlot) pk info.slot x k →
      ((∃ m, x.account = .mint m) ∨ ∃ m p, x.account = .multisig m p) → x.account.pubkey = pk ∧ Holding s' x.account) ∧
    ((∀ x k, ¬ NewestOn (noted s info s.finalizedSlot) pk info.slot x k) →
      s'.multisigs.find pk = s.multisigs.find pk ∧
      (s'.table.index.find pk).map s'.mints.find = (s.table.index.find pk).map s.mints.find) := by
  obtain ⟨slots, orig, inv⟩ := reach_inv (by omega) hr
  obtain ⟨slots', orig', inv', -, -, -, -, h⟩ := finalized_spec inv hn hs
  obtain ⟨h1, h2⟩ := h pk
  constructor
  · intro x k hx hm
    have hk : x.account.pubkey = pk := by
      have hp : ProcOk (Waiting (fun _ => True) s.table.counter) (noted s info s.finalizedSlot) := by
        unfold noted; split
        · exact (inv.proc.updateSlotInfo info).1
        · exact inv.proc
      exact (newest_good hp hx).1
    refine ⟨hk, ?_⟩
    have hr := h1 x k hx
    rcases hm with ⟨m, hm⟩ | ⟨m, p, hm⟩
    · rw [hm] at hr hk ⊢
      have := congrArg Rec.mint hr
      simp only [Rec.solid, recOf, Rec.apply, Option.map_eq_some_iff] at this
      simp only [ProgramAccount.pubkey] at hk
      simp only [Holding, hk]
      exact this
    · rw [hm] at hr hk ⊢
      have := congrArg Rec.multi hr
      simp only [Rec.solid, recOf, Rec.apply] at this
      simp only [ProgramAccount.pubkey] at hk
      simp only [Holding, hk]
      exact this
  · intro hx
    have := h2 hx
    exact ⟨congrArg Rec.multi this, congrArg Rec.mint this⟩

/-- **C54**. Every slot up to the finalized one, and every slot on its chain, is dropped; all other slots keep their states
and parents.  With recorded parents older than their slots, exactly the slots up to the finalized one are dropped. -/
theorem C54_dropped (X : Codecs) (ops : List TOp) (s s' : TokenStore) (σ : Orders) (info : SlotInfo)
    (notes : List AccountData) (hn : ops.length < 2 ^ 31 - 1) (hr : TokenStore.run X ops .empty = .ok s)
    (hs : s.processSlot σ info .finalized = .ok (notes, s')) (k : Nat) :
    (k ≤ info.slot ∨ OnChain (noted s info s.finalizedSlot) info.slot k → BMap.find s'.processed k = none) ∧
    (¬ (k ≤ info.slot ∨ OnChain (noted s info s.finalizedSlot) info.slot k) →
      BMap.find s'.processed k = BMap.find s.processed k) ∧
    (ParentsBelow (noted s info s.finalizedSlot) → info.slot < k → BMap.find s'.processed k = BMap.find s.processed k) ∧
    s'.finalizedSlot = max s.finalizedSlot info.slot := by
  obtain ⟨slots, orig, inv⟩ := reach_inv (by omega) hr
  obtain ⟨slots', orig', inv', -, h1, h2, -⟩ := finalized_spec inv hn hs
  refine ⟨(h2 k).1, (h2 k).2, ?_, h1⟩
  intro hb hk
  refine (h2 k).2 ?_
  rintro (h | h)
  · omega
  · have : ∀ a b, OnChain (noted s info s.finalizedSlot) a b → b ≤ a := by
      intro a b hab
      induction hab with
      | here _ => exact Nat.le_refl _
      | up h1 h2 _ ih => have := hb _ _ _ h1 h2; omega
    have := this _ _ h
    omega

/-- A store with states of `alice` at slots 1 and 2 (a child of 1) and of `bob` at slot 1. -/
def waiting : TokenStore := okStore (TokenStore.run Toy.codecs
  [.init mintAcct, .update (tokenAcct Toy.alice 1 1) .processed, .update (tokenAcct Toy.bob 1 1) .processed,
    .update (closedAcct Toy.alice 2 2) .processed, .slot plainOrders ⟨1, 0, 1⟩ .processed, .slot plainOrders ⟨2, 1, 2⟩ .processed] .empty)

theorem waiting_eq : TokenStore.run Toy.codecs
    [.init mintAcct, .update (tokenAcct Toy.alice 1 1) .processed, .update (tokenAcct Toy.bob 1 1) .processed,
      .update (closedAcct Toy.alice 2 2) .processed, .slot plainOrders ⟨1, 0, 1⟩ .processed, .slot plainOrders ⟨2, 1, 2⟩ .processed] .empty =
    .ok waiting := by decide +kernel

/-- Outcome of finalizing a slot. -/
def finalizedAt (s : TokenStore) (info : SlotInfo) : TokenStore :=
  match s.processSlot plainOrders info .finalized with | .ok (_, s) => s | _ => .empty

example : ∃ x, NewestOn (noted waiting ⟨2, 1, 2⟩ waiting.finalizedSlot) Toy.bob 2 x 1 ∧
    Holding (finalizedAt waiting ⟨2, 1, 2⟩) x.account := by
  have hs : waiting.processSlot plainOrders ⟨2, 1, 2⟩ .finalized =
      .ok ((match waiting.processSlot plainOrders ⟨2, 1, 2⟩ .finalized with | .ok (l, _) => l | _ => []),
        finalizedAt waiting ⟨2, 1, 2⟩) := by decide +kernel
  obtain ⟨e, he, x, hx⟩ : ∃ e, BMap.find (noted waiting ⟨2, 1, 2⟩ waiting.finalizedSlot) 1 = some e ∧
      ∃ x, e.accounts.find Toy.bob = some x := by
    refine ⟨_, Option.some_get (by decide +kernel) |>.symm, _, Option.some_get (by decide +kernel) |>.symm⟩
  obtain ⟨e2, he2, hx2, hp2⟩ : ∃ e, BMap.find (noted waiting ⟨2, 1, 2⟩ waiting.finalizedSlot) 2 = some e ∧
      e.accounts.find Toy.bob = none ∧ e.parent = some 1 := by
    refine ⟨_, Option.some_get (by decide +kernel) |>.symm, by decide +kernel, by decide +kernel⟩
  have hnew : NewestOn (noted waiting ⟨2, 1, 2⟩ waiting.finalizedSlot) Toy.bob 2 x 1 := .up he2 hx2 hp2 (.here he hx)
  refine ⟨x, hnew, (C54_newest_partial Toy.codecs _ waiting _ plainOrders ⟨2, 1, 2⟩ _ (by decide) waiting_eq hs Toy.bob ?_).1 x 1 hnew ?_⟩
  · intro p y k hp hpp hy
    obtain ⟨slots, orig, inv⟩ := reach_inv (by decide) waiting_eq
    have hin : ∀ k e, BMap.find (noted waiting ⟨2, 1, 2⟩ waiting.finalizedSlot) k = some e →
        ∀ a ∈ e.accounts, prefix4 a.1 = prefix4 Toy.bob → a.1 = Toy.bob := by
      intro k e hk
      have := BMap.mem_of_find hk
      revert this
      have hall : ∀ a ∈ noted waiting ⟨2, 1, 2⟩ waiting.finalizedSlot, ∀ b ∈ a.2.accounts,
          prefix4 b.1 = prefix4 Toy.bob → b.1 = Toy.bob := by decide +kernel
      intro hm
      exact hall _ hm
    obtain ⟨e', h1, h2⟩ := newest_mem hy
    exact absurd (hin k e' h1 _ (AMap.mem_of_find h2) hpp) hp
  · intro _; exact ⟨by decide +kernel, .inl (by decide +kernel)⟩

example : BMap.find (finalizedAt waiting ⟨1, 0, 1⟩).processed 2 = BMap.find waiting.processed 2 ∧
    BMap.find waiting.processed 2 ≠ none ∧ BMap.find (finalizedAt waiting ⟨1, 0, 1⟩).processed 1 = none := by decide +kernel

/-- A store with a state of `alice` and a deletion of a key with the same first four bytes at slot 1. -/
def colliding : TokenStore := okStore (TokenStore.run Toy.codecs
  [.init mintAcct, .update (tokenAcct Toy.alice 1 1) .processed, .update (closedAcct aliceTwin 1 2) .processed] .empty)

/-- A store with a state of the mint `alice` and a deletion of a key with the same first four bytes at slot 1. -/
def mintAndTwin : TokenStore := okStore (TokenStore.run Toy.codecs
  [.init (tokenAcct aliceTwin 0 0), .update { mintAcct with pubkey := Toy.alice } .processed, .update (closedAcct aliceTwin 1 2) .processed] .empty)

example : ∃ x, NewestOn (noted mintAndTwin ⟨1, 0, 1⟩ mintAndTwin.finalizedSlot) Toy.alice 1 x 1 ∧
    Holding (finalizedAt mintAndTwin ⟨1, 0, 1⟩) x.account := by
  have h0 : TokenStore.run Toy.codecs [.init (tokenAcct aliceTwin 0 0), .update { mintAcct with pubkey := Toy.alice } .processed,
      .update (closedAcct aliceTwin 1 2) .processed] .empty = .ok mintAndTwin := by decide +kernel
  have hs : mintAndTwin.processSlot plainOrders ⟨1, 0, 1⟩ .finalized =
      .ok ((match mintAndTwin.processSlot plainOrders ⟨1, 0, 1⟩ .finalized with | .ok (l, _) => l | _ => []),
        finalizedAt mintAndTwin ⟨1, 0, 1⟩) := by decide +kernel
  obtain ⟨e, he, x, hx, ht⟩ : ∃ e, BMap.find (noted mintAndTwin ⟨1, 0, 1⟩ mintAndTwin.finalizedSlot) 1 = some e ∧
      ∃ x, e.accounts.find Toy.alice = some x ∧ x.account = .mint { aMint with pubkey := Toy.alice } := by
    refine ⟨_, Option.some_get (by decide +kernel) |>.symm, _, Option.some_get (by decide +kernel) |>.symm, by decide +kernel⟩
  exact ⟨x, .here he hx, ((C54_mints_partial Toy.codecs _ mintAndTwin _ plainOrders ⟨1, 0, 1⟩ _ (by decide) h0 hs Toy.alice).1 x 1
    (.here he hx) (.inl ⟨_, ht⟩)).2⟩

/-- The full claim is false: a deletion of another key with the same first four bytes removes the new state. -/
theorem C54_refuted : ¬ C54_statement := by
  intro h
  have h0 : TokenStore.run Toy.codecs
      [.init mintAcct, .update (tokenAcct Toy.alice 1 1) .processed, .update (closedAcct aliceTwin 1 2) .processed] .empty =
      .ok colliding := by decide +kernel
  have hs : colliding.processSlot plainOrders ⟨1, 0, 1⟩ .finalized =
      .ok ((match colliding.processSlot plainOrders ⟨1, 0, 1⟩ .finalized with | .ok (l, _) => l | _ => []),
        finalizedAt colliding ⟨1, 0, 1⟩) := by decide +kernel
  obtain ⟨e, he, x, hx, t, ht⟩ : ∃ e, BMap.find (noted colliding ⟨1, 0, 1⟩ colliding.finalizedSlot) 1 = some e ∧
      ∃ x, e.accounts.find Toy.alice = some x ∧ ∃ t, x.account = .token t := by
    refine ⟨_, Option.some_get (by decide +kernel) |>.symm, _, Option.some_get (by decide +kernel) |>.symm,
      ⟨.tokenProgram, false, Toy.alice, Toy.bob, 0, 12, .frozen, some (Toy.prog2, 5), none, none, none⟩, by decide +kernel⟩
  have := (h Toy.codecs _ colliding _ plainOrders ⟨1, 0, 1⟩ _ (by decide) h0 hs).1 Toy.alice x 1 (.here he hx)
  rw [ht] at this
  simp only [Holding] at this
  have hk : t.pubkey = Toy.alice := by
    obtain ⟨slots, orig, inv⟩ := reach_inv (by decide) h0
    have hp : ProcOk (Waiting (fun _ => True) colliding.table.counter) (noted colliding ⟨1, 0, 1⟩ colliding.finalizedSlot) := by
      unfold noted; split
      · exact (inv.proc.updateSlotInfo _).1
      · exact inv.proc
    have := hp.key _ _ _ _ he hx
    rw [ht] at this
    exact this
  rw [hk] at this
  have hnone : (finalizedAt colliding ⟨1, 0, 1⟩).tokens.getByPubkey Toy.alice = .ok none := by decide +kernel
  rw [hnone] at this
  simp at this

/-! ## Deletion -/

/-- **C55**, the full claim. -/
def C55_statement : Prop :=
  ∀ (X : Codecs) (ops : List TOp) (s s' : TokenStore) (pk : Pubkey), ops.length < 2 ^ 31 - 1 →
    TokenStore.run X ops .empty = .ok s → s.addFinalized (.deleted pk) = .ok s' → s'.getAccount pk .finalized = .ok none

/-- **C55**. A key that is not stored as a multisig, and not as a mint and a token account at once, reads as absent after
its deletion is finalized. -/
theorem C55_deleted_partial (X : Codecs) (ops : List TOp) (s : TokenStore) (pk : Pubkey) (hn : ops.length < 2 ^ 31 - 1)
    (hr : TokenStore.run X ops .empty = .ok s) (h1 : s.multisigs.find pk = none)
    (h2 : s.table.index.find pk = none ∨ s.tokens.getByPubkey pk = .ok none) :
    ∃ s', s.addFinalized (.deleted pk) = .ok s' ∧ s'.getAccount pk .finalized = .ok none := by
  obtain ⟨slots, orig, inv⟩ := reach_inv (by omega) hr
  have hb := inv.bound
  have hcb := inv.cbound
  obtain ⟨s', slots', orig', e1, e2, -, -, -, -, -, -, -, e3, -⟩ :=
    add_fin inv.fin (x := .deleted pk) trivial trivial trivial (by omega) (by omega)
  refine ⟨s', e1, ?_⟩
  have hold := holding_of_rec (s := s) (slots := slots) e2 e3 (by
    intro p hp
    cases hp
    refine ⟨h1, ?_⟩
    rcases h2 with h2 | h2
    · left; simp [recOf, h2]
    · right; rw [getByPubkey_recOf inv.fin] at h2; simpa using h2)
  obtain ⟨g1, g2, g3⟩ := hold
  refine (getFinalized_eq e2 pk).2.2.2.2 g2 (by simp [recOf, g1]) ?_
  rw [getByPubkey_recOf e2] at g3
  simpa using g3

example : ∃ s', loaded.addFinalized (.deleted Toy.alice) = .ok s' ∧ s'.getAccount Toy.alice .finalized = .ok none :=
  C55_deleted_partial Toy.codecs _ loaded Toy.alice (by decide) loaded_eq (by decide +kernel) (.inl (by decide +kernel))

/-- The full claim is false: a closed multisig can still be read (line 392 looks in the wrong table). -/
theorem C55_refuted : ¬ C55_statement := by
  intro h
  have h0 : TokenStore.run Toy.codecs [.init mintAcct, .init (multisigAcct Toy.alice)] .empty = .ok multisigFirst := by
    decide +kernel
  have h1 : multisigFirst.addFinalized (.deleted Toy.alice) = .ok (okStore (multisigFirst.addFinalized (.deleted Toy.alice))) := by
    decide +kernel
  have := h Toy.codecs _ multisigFirst _ Toy.alice (by decide) h0 h1
  revert this
  decide +kernel

/-- **C55**. A token account marked as deleted is not returned: not on its own, and it adds nothing to a query. -/
theorem C55_marked_deleted (mints : AMap Nat MintAccount) (slot wv : Nat) :
    (∀ t, t.isDeleted = true → (ProgramAccount.token t).toSolana mints slot wv = .ok none) ∧
    (∀ l, TokenStore.tokensToSolana mints slot l = TokenStore.tokensToSolana mints slot (l.filter (fun t => !t.isDeleted))) := by
  have h1 : ∀ t wv, t.isDeleted = true → tokenToSolana mints t slot wv = .ok none := by
    intro t wv h; simp [tokenToSolana, h]
  refine ⟨fun t h => h1 t wv h, fun l => ?_⟩
  induction l with
  | nil => rfl
  | cons t l ih =>
    cases h : t.isDeleted with
    | true =>
      simp only [TokenStore.tokensToSolana, h1 t 0 h, Run.ok_bind, List.filter_cons, h, Bool.not_true, Bool.false_eq_true, if_false, ← ih]
      cases TokenStore.tokensToSolana mints slot l <;> simp
    | false =>
      simp only [TokenStore.tokensToSolana, List.filter_cons, h, Bool.not_false, if_true, ← ih]

example : TokenStore.tokensToSolana [(7, aMint)] 3 [{ plainToken with isDeleted := true }, { plainToken with mint := 7 }] =
    TokenStore.tokensToSolana [(7, aMint)] 3 [{ plainToken with mint := 7 }] :=
  (C55_marked_deleted _ 3 0).2 _

/-- The deletion of a multisig changes nothing about it, in any store. -/
theorem C55_multisig_stays (X : Codecs) (ops : List TOp) (s : TokenStore) (pk : Pubkey) (m : MultiSig)
    (hn : ops.length < 2 ^ 31 - 1) (hr : TokenStore.run X ops .empty = .ok s) (hm : s.multisigs.find pk = some m) :
    ∃ s' r, s.addFinalized (.deleted pk) = .ok s' ∧ s'.getAccount pk .finalized = .ok (some r) ∧ r.pubkey = pk ∧
      r.account.lamports = m.lamports := by
  obtain ⟨slots, orig, inv⟩ := reach_inv (by omega) hr
  have hb := inv.bound
  have hcb := inv.cbound
  obtain ⟨s', slots', orig', e1, e2, -, -, -, -, -, -, -, e3, -⟩ :=
    add_fin inv.fin (x := .deleted pk) trivial trivial trivial (by omega) (by omega)
  have hmm : (recOf s' slots' pk).multi = some m := by
    rw [show recOf s' slots' pk = (recOf s slots pk).apply (.deleted pk) from e3]
    simp only [Rec.apply]
    split <;> simp [recOf, hm]
  obtain ⟨r, h1, h2⟩ := (getFinalized_eq e2 pk).1 m hmm
  rw [multisigToSolana_ok (inv.fin.multis pk m hm).1] at h2
  cases h2
  exact ⟨s', _, e1, h1, rfl, rfl⟩

example : multisigFirst.multisigs.find Toy.alice ≠ none := by decide +kernel

/-! ## Unrelated accounts -/

/-- **C59**, the full claim: an account that is neither owned by a token program nor stored is rejected and nothing changes. -/
def C59_statement : Prop :=
  ∀ (X : Codecs) (ops : List TOp) (s : TokenStore) (a : AccountData) (c : Commitment), ops.length < 2 ^ 31 - 1 →
    TokenStore.run X ops .empty = .ok s → a.account.owner ≠ Spl.tokenId → a.account.owner ≠ Spl.token2022Id →
    NotStored s a.pubkey → s.updateAccount X a c = .ok (false, s)

/-- **C59**. An unrelated account is rejected and nothing changes, if no stored token account has the same first four bytes. -/
theorem C59_rejected_partial (X : Codecs) (ops : List TOp) (s : TokenStore) (a : AccountData) (c : Commitment)
    (hn : ops.length < 2 ^ 31 - 1) (hr : TokenStore.run X ops .empty = .ok s) (ho1 : a.account.owner ≠ Spl.tokenId)
    (ho2 : a.account.owner ≠ Spl.token2022Id) (hs : NotStored s a.pubkey)
    (hp : ∀ k t, s.tokens.getByPubkey k = .ok (some t) → prefix4 k ≠ prefix4 a.pubkey) :
    s.updateAccount X a c = .ok (false, s) ∧ s.initAccount X a = .ok s := by
  obtain ⟨slots, orig, inv⟩ := reach_inv (by omega) hr
  obtain ⟨h1, h2, h3⟩ := hs
  have hfalse : s.isTokenAccount a = .ok false := by
    unfold TokenStore.isTokenAccount
    rw [if_neg (by simp [h1, h2, ho1, ho2])]
    have hv : view s.tokens slots a.pubkey = none := by rw [getByPubkey_eq inv.fin.holds] at h3; simpa using h3
    rcases contains_spec inv.fin.holds a.pubkey with ⟨i, -, t, ht, hst⟩ | ⟨-, hc, -⟩ | ⟨-, i, hc, hb⟩
    · have := (view_eq_some inv.fin.holds).2 ⟨ht, i, hst⟩
      rw [hv] at this; simp at this
    · rw [hc]; rfl
    · exfalso
      obtain ⟨t, ht, hpt⟩ := (inv.fin.holds.bucket _ _ hb).2 i (by simp)
      have := (view_eq_some inv.fin.holds (pk := t.pubkey)).2 ⟨rfl, i, [i], by rw [hpt]; exact hb, by simp, ht⟩
      refine hp t.pubkey t ?_ hpt
      rw [getByPubkey_eq inv.fin.holds, this]
  have hu : s.updateAccount X a c = .ok (false, s) := by
    unfold TokenStore.updateAccount
    rw [hfalse]; rfl
  have hu' : s.updateAccount X a .finalized = .ok (false, s) := by
    unfold TokenStore.updateAccount
    rw [hfalse]; rfl
  exact ⟨hu, by rw [init_eq_update, hu']; rfl⟩

theorem loaded_keys : ∀ k t, loaded.tokens.getByPubkey k = .ok (some t) → k = Toy.alice := by
  obtain ⟨slots, orig, inv⟩ := reach_inv (by decide) loaded_eq
  intro k t h
  rw [getByPubkey_eq inv.fin.holds] at h
  simp only [Run.ok.injEq] at h
  obtain ⟨rfl, i, is, h1, h2, h3⟩ := (view_eq_some inv.fin.holds).1 h
  have hacc := inv.fin.holds.get h3
  have hkeys : ∀ b ∈ loaded.tokens.accounts, getPubkeyFromBinary b = .ok Toy.alice := by decide +kernel
  have := hkeys _ (List.mem_of_getElem? hacc)
  rw [getPubkey_toBytes] at this
  simpa using this

example : loaded.updateAccount Toy.codecs (Toy.acct Toy.prog2 Toy.bob 5 1 1) .finalized = .ok (false, loaded) ∧
    loaded.initAccount Toy.codecs (Toy.acct Toy.prog2 Toy.bob 5 1 1) = .ok loaded :=
  C59_rejected_partial Toy.codecs _ loaded (Toy.acct Toy.prog2 Toy.bob 5 1 1) .finalized (by decide) loaded_eq (by decide +kernel)
    (by decide +kernel) ⟨by decide +kernel, by decide +kernel, by decide +kernel⟩
    (by intro k t h; rw [loaded_keys k t h]; decide +kernel)

/-- The full claim is false: an unrelated account with the same first four bytes as the only stored token account of its
bucket is accepted, and deletes that token account. -/
theorem C59_refuted : ¬ C59_statement := by
  intro h
  have := h Toy.codecs _ loaded (Toy.acct aliceTwin Toy.bob 5 1 1) .finalized (by decide) loaded_eq (by decide +kernel) (by decide +kernel)
    ⟨by decide +kernel, by decide +kernel, by decide +kernel⟩
  revert this
  decide +kernel

/-- The unrelated account destroyed `alice`'s token account. -/
theorem C59_refuted_read : ∃ s', loaded.updateAccount Toy.codecs (Toy.acct aliceTwin Toy.bob 5 1 1) .finalized = .ok (true, s') ∧
    loaded.getAccount Toy.alice .finalized ≠ .ok none ∧ s'.getAccount Toy.alice .finalized = .ok none := by
  refine ⟨(match loaded.updateAccount Toy.codecs (Toy.acct aliceTwin Toy.bob 5 1 1) .finalized with
      | .ok (_, s) => s | _ => .empty), ?_, ?_, ?_⟩ <;> decide +kernel

/-- **C59**. Whatever is submitted at finalized commitment, the finalized records of a key stay the same if it is another
key, does not share its first four bytes, and is not the mint of the submitted token account. -/
theorem C59_frame (X : Codecs) (ops : List TOp) (s s' : TokenStore) (a : AccountData) (b : Bool) (pk : Pubkey)
    (hn : ops.length < 2 ^ 31 - 1) (hr : TokenStore.run X ops .empty = .ok s)
    (hu : s.updateAccount X a .finalized = .ok (b, s')) (hp : prefix4 pk ≠ prefix4 a.pubkey)
    (hm : s.table.index.find pk ≠ none ∨ ∀ T' x, classify X s.table a = .ok (x, T') → T'.index.find pk = none) :
    SameFinalized s s' pk := by
  obtain ⟨slots, orig, inv⟩ := reach_inv (by omega) hr
  have hcb := inv.cbound
  have hb := inv.bound
  unfold TokenStore.updateAccount at hu
  simp only [Run.bind_eq_ok] at hu
  obtain ⟨isT, -, hu⟩ := hu
  split at hu
  · simp at hu; obtain ⟨-, rfl⟩ := hu; exact ⟨rfl, rfl, rfl⟩
  · simp only [Run.bind_eq_ok] at hu
    obtain ⟨⟨r, T⟩, hcl, hu⟩ := hu
    obtain ⟨h1, h2, h3, h4, h5, h6⟩ := classify_inv inv.fin (by omega) (fun _ _ _ => trivial) hcl
    have hT : T.index.find pk = s.table.index.find pk := by
      cases hi : s.table.index.find pk with
      | some i => exact h4 pk i hi
      | none =>
        rcases hm with hm | hm
        · exact absurd hi hm
        · exact hm T r hcl
    have hrec : recOf { s with table := T } slots pk = recOf s slots pk := by simp only [recOf, hT]
    simp only at hu
    split at hu
    · simp at hu; obtain ⟨-, rfl⟩ := hu
      exact same_of_rec inv.fin h1 hrec
    · rename_i x
      rw [if_neg (by simp)] at hu
      simp only [Run.bind_eq_ok] at hu
      obtain ⟨s1, hs1, hu⟩ := hu
      simp only [Run.pure_eq, Run.ok.injEq, Prod.mk.injEq] at hu
      obtain ⟨-, rfl⟩ := hu
      obtain ⟨hk, hw⟩ := h5 x rfl
      obtain ⟨s2, slots', orig', e1, e2, -, -, -, -, -, -, -, -, -, e7⟩ := add_fin h1 hw.1 hw.2.1 hw.2.2 (by omega) (by simp; omega)
      rw [hs1] at e1; cases e1
      refine same_of_rec inv.fin e2 ?_
      rw [e7 pk (by rw [hk]; rintro rfl; exact hp rfl), hrec]
      rintro ⟨p, hpx, -, hpp⟩
      rw [hpx] at hk
      simp only [ProgramAccount.pubkey] at hk
      rw [hk] at hpp
      exact hp hpp.symm

example : prefix4 Toy.alice ≠ prefix4 (closedAcct Toy.bob 3 3).pubkey ∧
    ∀ T' x, classify Toy.codecs loaded.table (closedAcct Toy.bob 3 3) = .ok (x, T') → T'.index.find Toy.alice = none := by
  refine ⟨by decide, ?_⟩
  intro T' x h
  rw [C46_deleted _ _ _ (by decide)] at h
  cases h
  decide +kernel

end LAM.Props
