import Verif.Lemmas.TokenGaugesCount
import Verif.Props.TokenMemory
import Verif.Props.TokenQuery
import Verif.Props.Composed
/-!
# C137, C138, C139: the gauges of the token program store
-/
namespace LAM.Props
open Spec Token TokenStorage
open TokenStore (TOp)

/-- **C137**. The gauge of token accounts in memory less the gauge of deleted token accounts shows how many token accounts
are found by their public keys. -/
def C137_statement : Prop :=
  ∀ (X : Codecs) (ops : List TOp) (s : TokenStore) (g : TokenGauges) (ks : List Pubkey), ops.length < 2 ^ 31 →
    TokenStore.runG X ops .empty .zero = .ok (s, g) → TokensAre s ks → g.stored - g.deleted = ks.length

theorem submittedBy_account (o : TOp) : submittedBy o = o.account := by cases o <;> rfl

/-- **C137 (records)**. The gauges count the records of the storage, and those of them that are marked as deleted. -/
theorem C137_records (X : Codecs) (ops : List TOp) (s : TokenStore) (g : TokenGauges) (hn : ops.length < 2 ^ 31)
    (hr : TokenStore.runG X ops .empty .zero = .ok (s, g)) :
    g.stored = s.tokens.accounts.length ∧ g.deleted = s.tokens.accounts.countP deletedRecord :=
  runG_keeps (Q := fun _ => True) ops s g hn ⟨rfl, rfl⟩ (fun _ o _ s1 _ _ => keeps_counted X _ s1 o) (fun _ _ _ _ _ _ _ _ => trivial) hr

theorem countP_records {slots : List TokenAccount} (h : ∀ t ∈ slots, TokenFits t) :
    (slots.map TokenAccount.toBytes).countP deletedRecord + (slots.filter (fun t => !t.isDeleted)).length = slots.length := by
  induction slots with
  | nil => rfl
  | cons t l ih =>
    have := ih (fun t ht => h t (by simp [ht]))
    simp only [List.map_cons, List.countP_cons, deletedRecord_bytes (h t (by simp)), List.filter_cons]
    cases t.isDeleted <;> simp only [Bool.not_false, Bool.not_true, if_true, if_false, List.length_cons, Bool.false_eq_true] <;> omega

/-- **C137 (partial)**. The gauges never show too few token accounts, and they show the right number if no account is closed that
shares the first four bytes of another.  Missing: such accounts (`C137_refuted`). -/
theorem C137_partial (X : Codecs) (ops : List TOp) (s : TokenStore) (g : TokenGauges) (ks : List Pubkey) (hn : ops.length < 2 ^ 31)
    (hr : TokenStore.runG X ops .empty .zero = .ok (s, g)) (hk : TokensAre s ks) :
    ks.length ≤ g.stored - g.deleted ∧ (NoTwins ops → g.stored - g.deleted = ks.length) := by
  obtain ⟨slots, orig, inv⟩ := run_inv (Q := fun x => ∃ o ∈ ops, ∃ a, o.account = some a ∧ a.pubkey = x.pubkey ∧
      (x = .deleted a.pubkey → Closes a)) ops (inv_empty _) (by omega)
    (fun o ho a ha T x T' hx => ⟨o, ho, a, ha, ((classify_some hx).1).symm, fun e => (C46_deleted_iff X T T' a _ hx).1 e⟩)
    ((token_erase X ops .empty .zero s).2 ⟨g, hr⟩)
  obtain ⟨e1, e2⟩ := C137_records X ops s g hn hr
  have hc := countP_records inv.fin.holds.fits
  rw [← inv.fin.holds.accounts] at hc
  have hl : s.tokens.accounts.length = slots.length := by simp [inv.fin.holds.accounts]
  have hfound : ∀ pk, (∃ t, s.tokens.getByPubkey pk = .ok (some t)) ↔ ∃ t i, t.pubkey = pk ∧ Stored s.tokens slots i t := by
    intro pk
    simp only [getByPubkey_eq inv.fin.holds, Run.ok.injEq, view_eq_some inv.fin.holds]
    exact ⟨fun ⟨t, h, i, hi⟩ => ⟨t, i, h, hi⟩, fun ⟨t, i, h, hi⟩ => ⟨t, h, i, hi⟩⟩
  have h1 := pigeon ks ((slots.filter (fun t => !t.isDeleted)).map (·.pubkey)) hk.1 (by
    intro pk hp
    obtain ⟨t, i, rfl, hst⟩ := (hfound pk).1 ((hk.2 pk).1 hp)
    have hlive := inv.fin.live i t hst
    obtain ⟨is, -, -, hget⟩ := hst
    exact List.mem_map.2 ⟨t, List.mem_filter.2 ⟨List.mem_of_getElem? hget, by simp [hlive]⟩, rfl⟩)
  simp only [List.length_map] at h1
  refine ⟨by omega, fun ht => ?_⟩
  have hlink : ∀ (i : Nat) t, slots[i]? = some t → t.isDeleted = false → Stored s.tokens slots i t := by
    intro i t hi hd
    rcases inv.fin.slotsQ t (List.mem_of_getElem? hi) with rfl | ⟨⟨o, ho, a, ha, hak, -⟩, -, -⟩
    · simp [tombstone] at hd
    · refine inv.fin.linked t.pubkey ?_ i t hi rfl hd
      rintro p hne hpre ⟨o', ho', b, hb, hbk, hcl⟩
      simp only [ProgramAccount.pubkey] at hak hbk
      have := ht o ho o' ho' a b (by rw [submittedBy_account]; exact ha) (by rw [submittedBy_account]; exact hb)
        (by rw [hak, hbk, hpre]) (hcl (by rw [hbk]))
      exact hne (by rw [← hbk, ← this, hak])
  have h2 := pigeon ((slots.filter (fun t => !t.isDeleted)).map (·.pubkey)) ks (by
    rw [List.nodup_iff_pairwise_ne, List.pairwise_map, List.pairwise_filter, List.pairwise_iff_getElem]
    intro i j hi hj hlt hdi hdj heq
    simp only [Bool.not_eq_true'] at hdi hdj
    obtain ⟨is, hb1, hi1, hg1⟩ := hlink i _ (List.getElem?_eq_getElem hi) hdi
    obtain ⟨js, hb2, hj1, hg2⟩ := hlink j _ (List.getElem?_eq_getElem hj) hdj
    rw [← heq, hb1] at hb2; cases hb2
    have := inv.fin.holds.unique _ _ _ _ _ _ hb1 hi1 hj1 hg1 hg2 heq
    omega) (by
    intro pk hp
    obtain ⟨t, hm, rfl⟩ := List.mem_map.1 hp
    obtain ⟨hm, hd⟩ := List.mem_filter.1 hm
    simp only [Bool.not_eq_true'] at hd
    obtain ⟨i, hi⟩ := List.mem_iff_getElem?.1 hm
    exact (hk.2 _).2 ((hfound _).2 ⟨t, i, rfl, hlink i t hi hd⟩))
  simp only [List.length_map] at h2
  omega

/-- Two token accounts whose keys start with the same four bytes are loaded, and one is closed. -/
def twinGone : List TOp :=
  [.init mintAcct, .init (tokenAcct Toy.alice 1 1), .init (tokenAcct aliceTwin 1 1),
    .update (closedAcct aliceTwin 2 2) .processed, .slot plainOrders ⟨2, 1, 1⟩ .finalized]

def okRun (r : Run (TokenStore × TokenGauges)) : TokenStore × TokenGauges := match r with | .ok x => x | _ => (.empty, .zero)

def twinGoneRun : TokenStore × TokenGauges := okRun (TokenStore.runG Toy.codecs twinGone .empty .zero)

theorem twinGone_eq : TokenStore.runG Toy.codecs twinGone .empty .zero = .ok (twinGoneRun.1, twinGoneRun.2) := by decide +kernel

theorem no_tokens {s : TokenStore} (h : s.tokens.buckets = []) : TokensAre s [] := by
  refine ⟨List.nodup_nil, fun pk => ⟨by simp, ?_⟩⟩
  rintro ⟨t, ht⟩
  simp [getByPubkey, h] at ht

/-- No token account is found any more, but the gauges show one. -/
theorem C137_refuted : ¬ C137_statement := by
  intro hc
  have := hc Toy.codecs twinGone twinGoneRun.1 twinGoneRun.2 [] (by decide) twinGone_eq (no_tokens (by decide +kernel))
  exact absurd this (by decide +kernel)

/-- A token account is loaded and another comes and is closed again. -/
def openAndClosed : List TOp :=
  [.init mintAcct, .init (tokenAcct Toy.alice 1 1), .update (tokenAcct Toy.bob 2 1) .processed, .slot plainOrders ⟨2, 1, 1⟩ .finalized,
    .update (closedAcct Toy.bob 3 2) .processed, .slot plainOrders ⟨3, 2, 1⟩ .finalized]

def openAndClosedRun : TokenStore × TokenGauges := okRun (TokenStore.runG Toy.codecs openAndClosed .empty .zero)

theorem openAndClosed_eq : TokenStore.runG Toy.codecs openAndClosed .empty .zero = .ok (openAndClosedRun.1, openAndClosedRun.2) := by decide +kernel

example : (1 : Int) = openAndClosedRun.2.stored - openAndClosedRun.2.deleted ∧ openAndClosedRun.2.stored = 2 := by decide +kernel

theorem openAndClosed_noTwins : NoTwins openAndClosed := by
  intro o ho o' ho' a b ha hb
  simp only [openAndClosed, List.mem_cons, List.not_mem_nil, or_false] at ho ho'
  rcases ho with rfl | rfl | rfl | rfl | rfl | rfl <;> rcases ho' with rfl | rfl | rfl | rfl | rfl | rfl <;> cases ha <;> cases hb <;>
    intro h <;> first | (intro; rfl) | (exact absurd h (by decide +kernel))

theorem openAndClosed_keys : TokensAre openAndClosedRun.1 [Toy.alice] := by
  have hb : ∀ p, openAndClosedRun.1.tokens.buckets.find p = if p = prefix4 Toy.alice then some [0] else none := by
    have : openAndClosedRun.1.tokens.buckets = [(prefix4 Toy.alice, [0])] := by decide +kernel
    intro p
    rw [this]
    simp only [AMap.find, eq_comm]
  have h1 : ∃ t, openAndClosedRun.1.tokens.getByPubkey Toy.alice = .ok (some t) := by
    have : (match openAndClosedRun.1.tokens.getByPubkey Toy.alice with | .ok (some _) => true | _ => false) = true := by decide +kernel
    split at this
    · rename_i t ht; exact ⟨t, ht⟩
    · cases this
  refine ⟨by simp, fun pk => ⟨fun h => ?_, ?_⟩⟩
  · simp at h; subst h; exact h1
  · rintro ⟨t, ht⟩
    simp only [getByPubkey, hb] at ht
    by_cases hp : prefix4 pk = prefix4 Toy.alice
    · rw [if_pos hp] at ht
      have hrec : openAndClosedRun.1.tokens.accounts[0]?.map getPubkeyFromBinary = some (.ok Toy.alice) := by decide +kernel
      by_contra hne
      simp only [List.mem_singleton] at hne
      obtain ⟨b, hb0, hb1⟩ := Option.map_eq_some_iff.1 hrec
      simp [firstMatch, hb0, hb1, Ne.symm hne] at ht
    · rw [if_neg hp] at ht; simp at ht

example : openAndClosedRun.2.stored - openAndClosedRun.2.deleted = 1 :=
  (C137_partial Toy.codecs openAndClosed openAndClosedRun.1 openAndClosedRun.2 [Toy.alice] (by decide) openAndClosed_eq openAndClosed_keys).2 openAndClosed_noTwins

/-! ## States waiting for finalization -/

/-- **C138**. The gauge of processed accounts in memory shows how many states wait for finalization. -/
def C138_statement : Prop :=
  ∀ (X : Codecs) (ops : List TOp) (s : TokenStore) (g : TokenGauges), ops.length < 2 ^ 31 →
    TokenStore.runG X ops .empty .zero = .ok (s, g) → g.processed = heldStates s

/-- **C138 (partial)**. The gauge never shows too few states, and it shows the right number if every slot that has states when a later
slot is finalized is an ancestor of that slot, along parents the store knows.  Missing: slots that are skipped (`C138_refuted`). -/
theorem C138_partial (X : Codecs) (ops : List TOp) (s : TokenStore) (g : TokenGauges) (hn : ops.length < 2 ^ 31)
    (hr : TokenStore.runG X ops .empty .zero = .ok (s, g)) :
    heldStates s ≤ g.processed ∧ (NothingDropped X ops → g.processed = heldStates s) := by
  constructor
  · exact runG_keeps (Q := fun _ => True) ops s g hn (by decide) (fun _ o _ s1 _ _ => keeps_pending X _ s1 o) (fun _ _ _ _ _ _ _ _ => trivial) hr
  · intro hd
    refine runG_keeps (Q := fun _ => True) (R := fun s g => g.processed = pending s.processed) ops s g hn rfl (fun l o l' s1 he h1 => ?_)
      (fun _ _ _ _ _ _ _ _ => trivial) hr
    refine keeps_pending_eq X _ s1 o ?_
    rintro σ info rfl k e hk hne hle
    exact hd l σ info l' s1 he h1 k e hk hne hle

/-- A state is submitted in slot 2, but slot 3 follows on slot 1. -/
def skipping : List TOp :=
  [.init mintAcct, .update (tokenAcct Toy.alice 2 1) .processed, .slot plainOrders ⟨3, 1, 1⟩ .finalized]

def skippingRun : TokenStore × TokenGauges := okRun (TokenStore.runG Toy.codecs skipping .empty .zero)

theorem skipping_eq : TokenStore.runG Toy.codecs skipping .empty .zero = .ok (skippingRun.1, skippingRun.2) := by decide +kernel

/-- Nothing waits any more, but the gauge shows one state. -/
theorem C138_refuted : ¬ C138_statement := by
  intro hc
  have := hc Toy.codecs skipping skippingRun.1 skippingRun.2 (by decide) skipping_eq
  exact absurd this (by decide +kernel)

/-- States are submitted in slots 2, 3 and 4. -/
def threeSlots : List TOp :=
  [.init mintAcct, .update (tokenAcct Toy.alice 2 1) .processed, .update (tokenAcct Toy.bob 3 1) .processed,
    .update (tokenAcct Toy.bob 4 1) .processed]

def threeSlotsStore : TokenStore := okStore (TokenStore.run Toy.codecs threeSlots .empty)

theorem threeSlots_eq : TokenStore.run Toy.codecs threeSlots .empty = .ok threeSlotsStore := by decide +kernel

/-- Slot 3, a child of slot 2, is finalized then. -/
def oneWaiting : List TOp := threeSlots ++ [.slot plainOrders ⟨3, 2, 1⟩ .finalized]

def oneWaitingRun : TokenStore × TokenGauges := okRun (TokenStore.runG Toy.codecs oneWaiting .empty .zero)

theorem oneWaiting_eq : TokenStore.runG Toy.codecs oneWaiting .empty .zero = .ok (oneWaitingRun.1, oneWaitingRun.2) := by decide +kernel

theorem oneWaiting_kept : NothingDropped Toy.codecs oneWaiting := by
  intro l σ info l' s he hr k e hk hne hle
  have hl : l = threeSlots ∧ info = ⟨3, 2, 1⟩ := by
    unfold oneWaiting threeSlots at he
    unfold threeSlots
    rcases l with _ | ⟨a, _ | ⟨b, _ | ⟨c, _ | ⟨d, _ | ⟨d', l⟩⟩⟩⟩⟩ <;> simp at he
    · obtain ⟨rfl, rfl, rfl, rfl, ⟨-, rfl⟩, -⟩ := he
      exact ⟨rfl, rfl⟩
  obtain ⟨rfl, rfl⟩ := hl
  rw [threeSlots_eq, Run.ok.injEq] at hr
  subst hr
  have hs : threeSlotsStore.processed.map (·.1) = [2, 3, 4] := by decide +kernel
  have : k ∈ threeSlotsStore.processed.map (·.1) := List.mem_map.2 ⟨_, BMap.mem_of_find hk, rfl⟩
  rw [hs] at this
  simp only [List.mem_cons, List.not_mem_nil, or_false] at this hle
  obtain ⟨e3, h3, p3⟩ : ∃ e, BMap.find (if threeSlotsStore.finalizedSlot < 3 then threeSlotsStore.processed.updateSlotInfo ⟨3, 2, 1⟩
      else threeSlotsStore.processed) 3 = some e ∧ e.parent = some 2 :=
    (Option.map_eq_some_iff (f := BySlot.parent) (b := some 2)).1 (by decide +kernel)
  obtain ⟨e2, h2⟩ : ∃ e, BMap.find (if threeSlotsStore.finalizedSlot < 3 then threeSlotsStore.processed.updateSlotInfo ⟨3, 2, 1⟩
      else threeSlotsStore.processed) 2 = some e :=
    Option.isSome_iff_exists.1 (by decide +kernel)
  rcases this with rfl | rfl | rfl
  · exact .up h3 p3 (.here h2)
  · exact .here h3
  · omega

example : heldStates oneWaitingRun.1 = 1 ∧ oneWaitingRun.2.processed = heldStates oneWaitingRun.1 :=
  ⟨by decide +kernel, (C138_partial Toy.codecs oneWaiting oneWaitingRun.1 oneWaitingRun.2 (by decide) oneWaiting_eq).2 oneWaiting_kept⟩

/-! ## Mints -/

/-- **C139**. The gauge of mints in memory shows how many mints are stored. -/
def C139_statement : Prop :=
  ∀ (X : Codecs) (ops : List TOp) (s : TokenStore) (g : TokenGauges), ops.length < 2 ^ 31 →
    TokenStore.runG X ops .empty .zero = .ok (s, g) → g.mints = s.mints.length

/-- **C139 (partial)**. The gauge never shows too many mints, and it shows the right number if the mint of every token account
is stored before the account is submitted.  Missing: mints that come after their token accounts (`C139_refuted`). -/
theorem C139_partial (X : Codecs) (ops : List TOp) (s : TokenStore) (g : TokenGauges) (hn : ops.length < 2 ^ 31)
    (hr : TokenStore.runG X ops .empty .zero = .ok (s, g)) :
    g.mints ≤ s.mints.length ∧ (MintsFirst X ops → g.mints = s.mints.length) := by
  constructor
  · exact runG_keeps (Q := fun _ => True) ops s g hn (by decide) (fun _ o _ s1 _ _ => keeps_mints X _ s1 o) (fun _ _ _ _ _ _ _ _ => trivial) hr
  · intro hm
    refine (runG_keeps (Q := fun _ => True) (R := MintsCounted) ops s g hn ⟨rfl, by simp [TokenStore.empty]⟩ (fun l o l' s1 he h1 => ?_)
      (fun _ _ _ _ _ _ _ _ => trivial) hr).1
    refine keeps_mints_eq X _ s1 o fun a r T ha hc => ?_
    cases r with
    | none => exact classify_none hc
    | some x =>
      obtain ⟨-, ⟨h, -⟩ | ⟨t, mint, rfl, -, -⟩, -⟩ := classify_some hc
      · exact h
      · obtain ⟨bs, hd, hk⟩ := hm l o l' s1 a he h1 (by rw [submittedBy_account]; exact ha)
        obtain ⟨-, sa, hsa, -, rfl⟩ := classify_token_mint hd hc
        obtain ⟨i, m, hi, -⟩ := hk sa hsa
        simp [MintTable.getOrCreate, hi]

/-- A token account is loaded before its mint. -/
def mintLater : List TOp := [.init (tokenAcct Toy.alice 1 1), .init mintAcct]

def mintLaterRun : TokenStore × TokenGauges := okRun (TokenStore.runG Toy.codecs mintLater .empty .zero)

theorem mintLater_eq : TokenStore.runG Toy.codecs mintLater .empty .zero = .ok (mintLaterRun.1, mintLaterRun.2) := by decide +kernel

/-- One mint is stored, but the gauge shows none. -/
theorem C139_refuted : ¬ C139_statement := by
  intro hc
  have := hc Toy.codecs mintLater mintLaterRun.1 mintLaterRun.2 (by decide) mintLater_eq
  exact absurd this (by decide +kernel)

/-- Then the mint is closed. -/
def mintGone : List TOp := mintLater ++ [.update (closedAcct Toy.prog 2 2) .processed, .slot plainOrders ⟨2, 1, 1⟩ .finalized]

def mintGoneRun : TokenStore × TokenGauges := okRun (TokenStore.runG Toy.codecs mintGone .empty .zero)

theorem mintGone_eq : TokenStore.runG Toy.codecs mintGone .empty .zero = .ok (mintGoneRun.1, mintGoneRun.2) := by decide +kernel

/-- With such a mint closed, the gauge falls below zero. -/
theorem C139_negative : ∃ ops s g, TokenStore.runG Toy.codecs ops .empty .zero = .ok (s, g) ∧ s.mints = [] ∧ g.mints = -1 :=
  ⟨mintGone, mintGoneRun.1, mintGoneRun.2, mintGone_eq, by decide +kernel, by decide +kernel⟩

/-- Loading a snapshot counts its token accounts, but not its mints. -/
theorem C139_snapshot (s s' : TokenStore) (g g' : TokenGauges) (x : TokenSnapshot) (h : s.loadSnapshotG g x = .ok (s', g')) :
    g'.mints = g.mints := by
  unfold TokenStore.loadSnapshotG at h
  generalize TokenStore.loadMints x.mints [] (TokenStore.loadMultisigs x.multisigs s) = r at h
  obtain ⟨mapping, s1⟩ := r
  simp only at h
  generalize x.tokens = l at h
  induction l generalizing s1 g with
  | nil => simp [TokenStore.loadTokensG] at h; rw [h.2]
  | cons b l ih =>
    simp only [TokenStore.loadTokensG, Run.bind_eq_ok] at h
    obtain ⟨t, -, i, -, ⟨⟨⟨k, added⟩, tokens⟩, g1⟩, h1, h⟩ := h
    rw [ih _ _ h, (saveG_others h1).2]

/-- A mint, and then a token account of it. -/
def mintBefore : List TOp := [.init mintAcct, .init (tokenAcct Toy.alice 1 1)]

def mintBeforeRun : TokenStore × TokenGauges := okRun (TokenStore.runG Toy.codecs mintBefore .empty .zero)

theorem mintBefore_eq : TokenStore.runG Toy.codecs mintBefore .empty .zero = .ok (mintBeforeRun.1, mintBeforeRun.2) := by decide +kernel

theorem mintBefore_first : MintsFirst Toy.codecs mintBefore := by
  intro l o l' s a he hr ha
  unfold mintBefore at he
  rcases l with _ | ⟨b, _ | ⟨c, l⟩⟩ <;> simp only [List.nil_append, List.cons_append, List.cons.injEq] at he
  · obtain ⟨rfl, -⟩ := he
    cases ha
    obtain ⟨bs, h1, h2⟩ : ∃ bs, mintAcct.account.data.data Toy.codecs = .ok bs ∧ (mintAcct.account.data.len == bs.length &&
        (Spl.unpackAccount bs).isNone) = true := of_check (p := fun bs => mintAcct.account.data.len == bs.length &&
          (Spl.unpackAccount bs).isNone) (by decide +kernel)
    simp only [Bool.and_eq_true, beq_iff_eq, Option.isNone_iff_eq_none] at h2
    refine ⟨bs, ⟨h1, h2.1⟩, fun sa hsa => ?_⟩
    rw [(Spl.unpackAccount_iff _ _).2 hsa] at h2
    cases h2.2
  · obtain ⟨rfl, rfl, -⟩ := he
    cases ha
    refine ⟨splAccount.pack, ⟨rfl, rfl⟩, fun sa h => ?_⟩
    have h1 : Spl.unpackAccount splAccount.pack = some splAccount := by decide +kernel
    rw [(Spl.unpackAccount_iff _ _).2 h] at h1
    cases h1
    rw [loadedMint_eq, Run.ok.injEq] at hr
    subst hr
    obtain ⟨i, hi, hm⟩ : ∃ i, loadedMint.table.index.find splAccount.mint = some i ∧ (loadedMint.mints.find i).isSome = true :=
      ⟨0, by decide +kernel, by decide +kernel⟩
    obtain ⟨m, hm⟩ := Option.isSome_iff_exists.1 hm
    exact ⟨i, m, hi, hm⟩
  · simp at he

example : mintBeforeRun.2.mints = 1 := by
  rw [(C139_partial Toy.codecs mintBefore mintBeforeRun.1 mintBeforeRun.2 (by decide) mintBefore_eq).2 mintBefore_first]
  decide +kernel

end LAM.Props
