import Verif.Lemmas.ProgramQuery
import Verif.Props.ProgramRead
/-!
# C111, C112: what the simulator program lists, and that it answers
-/
namespace LAM.Props
open Spec Token Sim ProcStore
open TokenStore (TOp)

/-! ## C111: the token accounts of an owner -/

/-- `k` shows the token account `pk`, written as these bytes with this owning program. -/
def EntryFor {U : Type} (X : Codecs) (E : Rpc.Externals U) (config : Option Rpc.AccountConfig) (pk program : Pubkey) (bs : Bytes)
    (k : Rpc.KeyedAccount U) : Prop :=
  k.pubkey = E.text pk ∧ ∃ a d sa sa', Shows X E config a k.account ∧ a.pubkey = pk ∧ a.account.owner = program ∧
    a.account.data.data X = .ok d ∧ AccountLayout bs sa ∧ AccountLayout d sa' ∧ SameToken sa sa'

/-- The request asks for the finalized token accounts of `owner`, without context; a mint it asks for is in the archive. -/
structure OwnerRequest {U : Type} (X : Codecs) (E : Rpc.Externals U) (ws : List (Nat × Written)) (key : Bytes)
    (config : Option Rpc.ProgramConfig) (program : Pubkey) (l : List AccountFilterType) (owner : Pubkey) : Prop where
  parsed : E.parse key = some program
  token : program = Spl.tokenId ∨ program = Spl.token2022Id
  filters : FiltersFor X config (some l)
  asks : AsksOwner program l owner
  mint : ∀ m, AsksMint program l m → ArchiveMint ws m
  plain : ¬ WantsContext config
  finalized : commitmentFor (config.map (·.account)) = .finalized

/-- **C111**, as claimed: once the archive is loaded, and while the stream is followed and in order, `getProgramAccounts` for the
token accounts of an owner lists, once each, the accounts of the program that pass the filters as of the last finalized slot,
as they are then, and no others. -/
def C111_statement : Prop :=
  ∀ (U : Type) (X : Codecs) (E : Rpc.Externals U) (L : Lz4Block) (decode : Bytes → Option Manifest) (items : List Item)
    (ws : List (Nat × Written)) (evs : List Event) (w : Main) (σ : Orders) (o : SnapshotOrders) (key : Bytes)
    (config : Option Rpc.ProgramConfig) (program owner : Pubkey) (l : List AccountFilterType),
    WellFormedArchive decode items ws → Consistent (tokenOwned (ws.map (·.2))) → Plain evs → StreamRespects X ws evs →
    Event.hangUp ∉ evs → ws.length + evs.length < 2 ^ 31 → LoadsFirst X decode true evs (Main.start true items) →
    (Main.start true items).run X decode evs = .ok w → w.serves → (∀ p q, E.text p = E.text q → p = q) →
    OwnerRequest X E ws key config program l owner →
    ∃ shown, Rpc.getProgramAccounts X E (storageOf X L σ o w.store) key config = .ok (.ok (.noContext shown)) ∧
      ∀ par pk d, TokenKey ws evs pk → InOrder X par evs pk → Current ws evs par pk d →
        (∀ bs, d = some (program, bs) → (∀ f ∈ l, Allows X f bs) →
          ∃ k ∈ shown, EntryFor X E (config.map (·.account)) pk program bs k) ∧
        (∀ k ∈ shown, k.pubkey = E.text pk → ∃ bs, d = some (program, bs) ∧ (∀ f ∈ l, Allows X f bs) ∧
          EntryFor X E (config.map (·.account)) pk program bs k) ∧
        ∀ (i j : Nat) k k', shown[i]? = some k → shown[j]? = some k' → k.pubkey = E.text pk → k'.pubkey = E.text pk → i = j

theorem forall₂_left {α β : Type} {R : α → β → Prop} {l : List α} {m : List β} (h : List.Forall₂ R l m) {a : α} (ha : a ∈ l) :
    ∃ b ∈ m, R a b := by
  induction h with
  | nil => simp at ha
  | cons h _ ih =>
    rcases List.mem_cons.1 ha with rfl | ha
    · exact ⟨_, List.mem_cons_self, h⟩
    · obtain ⟨b, hb, hr⟩ := ih ha
      exact ⟨b, List.mem_cons_of_mem _ hb, hr⟩

theorem forall₂_right {α β : Type} {R : α → β → Prop} {l : List α} {m : List β} (h : List.Forall₂ R l m) {b : β} (hb : b ∈ m) :
    ∃ a ∈ l, R a b := by
  induction h with
  | nil => simp at hb
  | cons h _ ih =>
    rcases List.mem_cons.1 hb with rfl | hb
    · exact ⟨_, List.mem_cons_self, h⟩
    · obtain ⟨b, hb, hr⟩ := ih hb
      exact ⟨b, List.mem_cons_of_mem _ hb, hr⟩

theorem forall₂_once {α β : Type} {R : α → β → Prop} {p : α → Bool} {q : β → Prop} (hpq : ∀ a b, R a b → q b → p a = true)
    {l : List α} {m : List β} (h : List.Forall₂ R l m) (hc : l.countP p ≤ 1) {i j : Nat} {b c : β} (hb : m[i]? = some b)
    (hc' : m[j]? = some c) (qb : q b) (qc : q c) : i = j := by
  have none : ∀ {l : List α} {m : List β}, List.Forall₂ R l m → l.countP p = 0 → ∀ {i : Nat} {b : β}, m[i]? = some b → ¬ q b := by
    intro l m h h0 i b hb hq
    obtain ⟨a, ha, hr⟩ := forall₂_right h (List.mem_of_getElem? hb)
    exact (List.countP_eq_zero.1 h0 a ha) (hpq a b hr hq)
  induction h generalizing i j with
  | nil => simp at hb
  | @cons x y l m h h' ih =>
    rw [List.countP_cons] at hc
    cases i with
    | zero =>
      cases j with
      | zero => rfl
      | succ j =>
        simp only [List.getElem?_cons_zero, Option.some.injEq] at hb
        subst hb
        rw [hpq x _ h qb] at hc
        exact absurd qc (none h' (by simp at hc; exact List.countP_eq_zero.2 (by simpa using hc)) (by simpa using hc'))
    | succ i =>
      cases j with
      | zero =>
        simp only [List.getElem?_cons_zero, Option.some.injEq] at hc'
        subst hc'
        rw [hpq x _ h qc] at hc
        exact absurd qb (none h' (by simp at hc; exact List.countP_eq_zero.2 (by simpa using hc)) (by simpa using hb))
      | succ j =>
        have := ih (i := i) (j := j) (by omega) (by simpa using hb) (by simpa using hc')
        omega

theorem owner_fixed {X : Codecs} {ws : List (Nat × Written)} {evs : List Event} {pk own : Pubkey} {ops : List TOp}
    (hc : Consistent (tokenOwned (ws.map (·.2)))) (hs : StreamRespects X ws evs)
    (ho : OwnerKept ws evs pk own) (hi : Interleaved (archived ws) (streamed evs) ops) : OwnerFixed X pk own ops := by
  intro op hop a ha hpk
  have ha' : submittedBy op = some a := by cases op <;> exact ha
  obtain ⟨⟨bs, hd, -⟩, -⟩ := feed_respects hc hs hi hop ha'
  refine ⟨bs, hd, fun sa hsa => ?_⟩
  rcases (interleaved_mem hi op).1 hop with hop | hop
  · obtain ⟨w, hw, rfl⟩ := archived_kind hop
    cases ha
    have : bs = w.data := by
      have := (honest_submitted X w).1
      rw [hd.1] at this
      cases this; rfl
    subst this
    exact ho.archive w hw hpk sa hsa
  · rcases streamed_kind hop with ⟨b, rfl, bs', hb⟩ | ⟨σ, info, c, rfl, -⟩
    · cases ha
      have : bs' = bs := by have := hd.1; rw [hb] at this; cases this; rfl
      subst this
      exact ho.stream _ _ hop hpk _ sa hb hsa
    · cases ha

/-- **C111**, the part that holds: accounts whose owner never changes are all listed, and whatever is listed has the owner (and
the mint) asked for, is as of the last finalized slot, and is listed once. What is missing: an account that changes its owner is
not listed for the new one, and the program and the other filters are not looked at. -/
theorem C111_partial {U : Type} (X : Codecs) (E : Rpc.Externals U) (L : Lz4Block) (decode : Bytes → Option Manifest)
    (items : List Item) (ws : List (Nat × Written)) (evs : List Event) (w : Main) (σ : Orders) (o : SnapshotOrders) (key : Bytes)
    (config : Option Rpc.ProgramConfig) (program owner : Pubkey) (l : List AccountFilterType)
    (ha : WellFormedArchive decode items ws) (hc : Consistent (tokenOwned (ws.map (·.2)))) (hp : Plain evs)
    (hsr : StreamRespects X ws evs) (hh : Event.hangUp ∉ evs) (hn : ws.length + evs.length < 2 ^ 31)
    (hf : LoadsFirst X decode true evs (Main.start true items)) (hr : (Main.start true items).run X decode evs = .ok w)
    (hs : w.serves) (ht : ∀ p q, E.text p = E.text q → p = q) (hq : OwnerRequest X E ws key config program l owner) :
    ∃ shown, Rpc.getProgramAccounts X E (storageOf X L σ o w.store) key config = .ok (.ok (.noContext shown)) ∧
      ∀ par pk d, TokenKey ws evs pk → InOrder X par evs pk → Current ws evs par pk d →
        (∀ own p bs, OwnerKept ws evs pk own → d = some (p, bs) → (∀ f ∈ l, Allows X f bs) →
          ∃ k ∈ shown, EntryFor X E (config.map (·.account)) pk p bs k) ∧
        (∀ k ∈ shown, k.pubkey = E.text pk → ∃ p bs, d = some (p, bs) ∧ Allows X (.memcmp ⟨32, .bytes owner.bytes⟩) bs ∧
          (∀ m, AsksMint program l m → Allows X (.memcmp ⟨0, .bytes m.bytes⟩) bs) ∧
          EntryFor X E (config.map (·.account)) pk p bs k) ∧
        ∀ (i j : Nat) k k', shown[i]? = some k → shown[j]? = some k' → k.pubkey = E.text pk → k'.pubkey = E.text pk → i = j := by
  obtain ⟨hl, ix, n, slots, orig, rdy, inv⟩ := served_ready ha hc hp hsr hh (by omega) hf hr hs
  obtain ⟨ops, i1, i2, i3⟩ := served_feed ha hp hr hs hl
  have hlen := feed_length i1 hn
  obtain ⟨mint, o1, o2⟩ := ownerMint_of hq.asks
  have hgpa : ∃ rs, w.store.getProgramAccounts X σ program (some l) .finalized = .ok (.ok rs) := by
    obtain ⟨r, hr⟩ := gpaFinalized_ready inv.fin rdy σ program (some l) (by
      rintro l' e
      cases e
      refine ⟨fun f hf d => ?_, fun ow m e => ?_⟩
      · obtain ⟨b, hb, -⟩ := allows_ok X f d (filters_wellFormed hq.filters l rfl f hf)
        exact ⟨b, hb⟩
      · rw [o1] at e
        cases e
        rw [rdy.known m (hq.mint m ((o2 m).1 rfl))]
        simp)
    cases r with
    | ok rs =>
      refine ⟨rs, ?_⟩
      unfold TokenStore.getProgramAccounts
      rw [if_neg (by rcases hq.token with h | h <;> simp [h]), hr]
      simp
    | error e =>
      exfalso
      unfold TokenStore.gpaFinalized at hr
      simp only [o1, Run.bind_eq_ok] at hr
      obtain ⟨mi, -, hr⟩ := hr
      split at hr
      · simp only [Run.bind_eq_ok] at hr
        obtain ⟨_, -, _, -, hr⟩ := hr
        cases hr
      · cases hr
  obtain ⟨rs, hgpa⟩ := hgpa
  obtain ⟨shown, s1, s2⟩ := list_shown (S := storageOf X L σ o w.store) hq.parsed hq.filters hq.plain
    (by rw [hq.finalized]; exact hgpa) (fun a h => (raw_query hgpa a h).readable)
  refine ⟨shown, s1, ?_⟩
  intro par pk d hk hio hd
  obtain ⟨g1, g2⟩ := feed_read hc hsr hk hio i1 hlen i2 (fun _ _ => i3 (fun pre σ slot parent level post e h => hf pre σ slot parent level post e (.inl (by simpa using h))) pk) hd
  have htw : NoTwinClosed X pk ops := feed_noTwin hc hk i1
  have hon := feed_only hc hsr hk i1
  obtain ⟨j1, j2, -⟩ := stream_only ops hlen hon i2
  refine ⟨?_, ?_, ?_⟩
  · intro own p bs hown hd' hall
    obtain ⟨r, bs', sa, sa', e1, e2, -, e4, e5, e6, e7, e8⟩ := g2 p bs hd'
    have hmem := C69_owner_partial X ops w.store own σ program owner pk l rs r bs' hlen i2 (owner_fixed hc hsr hown i1) hq.asks hgpa
      j1 j2 e1 e5
      ((allows_owner e7 _).2 (by rw [← e8.owner]; exact (allows_owner e6 _).1 (hall _ (lastIs_filter hq.asks.2))))
      (fun m hm => (allows_mint e7 _).2 (by rw [← e8.mint]; exact (allows_mint e6 _).1 (hall _ (lastIs_filter hm.2))))
    obtain ⟨k, k1, k2, k3⟩ := forall₂_left s2 hmem
    exact ⟨k, k1, by rw [k2, e2], r, bs', sa, sa', k3, e2, e4, e5.1, e6, e7, e8⟩
  · intro k hk1 hkp
    obtain ⟨a, a1, a2, a3⟩ := forall₂_right s2 hk1
    have apk : a.pubkey = pk := ht _ _ (by rw [← a2, hkp])
    have hread := listed_read hlen htw hon i2 hq.asks hgpa a1 apk
    cases d with
    | none => rw [g1 rfl] at hread; cases hread
    | some pd =>
      obtain ⟨p, bs⟩ := pd
      obtain ⟨r, bs', sa, sa', e1, e2, -, e4, e5, e6, e7, e8⟩ := g2 p bs rfl
      rw [hread] at e1
      cases e1
      obtain ⟨bs2, f1, -, f2, f3⟩ := C57_owner_partial X ops w.store σ program owner l rs hlen i2 hq.asks hgpa a a1
      have : bs2 = bs' := by have := f1.1; rw [e5.1] at this; cases this; rfl
      subst this
      refine ⟨p, bs, rfl, (allows_owner e6 _).2 (by rw [e8.owner]; exact (allows_owner e7 _).1 f2),
        fun m hm => (allows_mint e6 _).2 (by rw [e8.mint]; exact (allows_mint e7 _).1 (f3 m hm)),
        hkp, a, bs2, sa, sa', a3, apk, e4, e5.1, e6, e7, e8⟩
  · intro i j k k' h1 h2 h3 h4
    exact forall₂_once (q := fun k => k.pubkey = E.text pk) (p := fun r : AccountData => decide (r.pubkey = pk))
      (fun a b hab hb => by simp only [decide_eq_true_eq]; exact ht _ _ (by rw [← hab.1, hb])) s2
      (listed_once hlen htw i2 hq.asks hgpa) h1 h2 h3 h4

/-! ### Samples -/

def requestOf (l : List RpcFilter) : Option Rpc.ProgramConfig := some ⟨some l, ⟨none, none, none, none⟩, none⟩

/-- The token accounts of `bob`. -/
def bobRequest : Option Rpc.ProgramConfig := requestOf [.dataSize 165, .memcmp 32 (.bytes Toy.bob.bytes)]

theorem bob_request {ws : List (Nat × Written)} {program : Pubkey} (hp : program = Spl.tokenId ∨ program = Spl.token2022Id) :
    OwnerRequest Toy.codecs bytesExternals ws program.bytes bobRequest program byBob Toy.bob := by
  obtain ⟨h1, h2⟩ := C71_recognised program byBob
  refine ⟨?_, hp, .cons rfl (.cons rfl .nil), (h1 _).1 ?_, fun m hm => absurd ((h2 m).2 hm) ?_, ?_, rfl⟩
  · rcases hp with rfl | rfl <;> decide +kernel
  · rcases hp with rfl | rfl <;> decide +kernel
  · rcases hp with rfl | rfl
    · rw [show (ownerMintFilter Spl.tokenId byBob).2 = none by decide +kernel]; simp
    · rw [show (ownerMintFilter Spl.token2022Id byBob).2 = none by decide +kernel]; simp
  · rintro ⟨c, h, h'⟩
    cases h
    simp at h'

theorem text_injective : ∀ p q, bytesExternals.text p = bytesExternals.text q → p = q := fun p q h => by cases p; cases q; cases h; rfl

/-- The answer to a request for a list. -/
def listAnswer (w : Main) (program : Pubkey) (config : Option Rpc.ProgramConfig) :=
  Rpc.getProgramAccounts Toy.codecs bytesExternals (storageOf Toy.codecs plainLz4 plainOrders plainSnapshotOrders w.store) program.bytes config

/-- The keys and amounts listed, if any. -/
def listShown (w : Main) (program : Pubkey) (config : Option Rpc.ProgramConfig) : Option (List (Bytes × Nat)) :=
  match listAnswer w program config with
  | .ok (.ok (.noContext l)) => some (l.map (fun k => (k.pubkey, leNat (field k.account 64 8))))
  | _ => none

/-- C111 is false: `alice` belongs to the Token program, but is listed for the Token-2022 program. -/
theorem C111_refuted : ¬ C111_statement := by
  intro h
  obtain ⟨w, hr, hw⟩ := of_check (r := oneRun loadedBefore)
    (p := fun w => isDone w.loader && decide (listShown w Spl.token2022Id bobRequest = some [(Toy.alice.bytes, 99)])) (by decide +kernel)
  simp only [Bool.and_eq_true, decide_eq_true_eq] at hw
  obtain ⟨h1, h2⟩ := hw
  obtain ⟨shown, s1, s2⟩ := h Bytes Toy.codecs bytesExternals plainLz4 oneDecode (archiveOf oneFile) oneAccounts loadedBefore w plainOrders
    plainSnapshotOrders Spl.token2022Id.bytes bobRequest Spl.token2022Id Toy.bob byBob one_ok one_consistent plain_before
    (one_respects (fun a c hm => by rw [streamed_before] at hm; exact update_stream hm))
    (by simp [loadedBefore, aliceChanges, messageOf, slotMsg]) (by decide) (before_first true) hr (serves_of h1) text_injective
    (bob_request (.inr rfl))
  have e : listAnswer w Spl.token2022Id bobRequest = .ok (.ok (.noContext shown)) := s1
  rw [listShown, e] at h2
  simp only [Option.some.injEq] at h2
  obtain ⟨k, hk, hk'⟩ : ∃ k ∈ shown, (k.pubkey, leNat (field k.account 64 8)) = (Toy.alice.bytes, 99) := by
    have : (Toy.alice.bytes, 99) ∈ shown.map (fun k => (k.pubkey, leNat (field k.account 64 8))) := by rw [h2]; simp
    simpa using List.mem_map.1 this
  obtain ⟨bs, hd, -⟩ := (s2 before Toy.alice _ (one_key streamed_before) (one_order streamed_before) (one_current streamed_before)).2.1 k hk
    (by simp only [Prod.mk.injEq] at hk'; exact hk'.1)
  simp only [Option.some.injEq, Prod.mk.injEq] at hd
  exact absurd hd.1 (by decide +kernel)

/-- The sample: the 99 of `alice` is listed for `bob`. -/
example : ∃ w shown, oneRun loadedBefore = .ok w ∧ listAnswer w Spl.tokenId bobRequest = .ok (.ok (.noContext shown)) ∧
    ∃ k ∈ shown, EntryFor Toy.codecs bytesExternals (some ⟨none, none, none, none⟩) Toy.alice Spl.tokenId otherBytes k := by
  obtain ⟨w, hr, hw⟩ := of_check (r := oneRun loadedBefore) (p := fun w => isDone w.loader) (by decide +kernel)
  obtain ⟨shown, s1, s2⟩ := C111_partial Toy.codecs bytesExternals plainLz4 oneDecode (archiveOf oneFile) oneAccounts loadedBefore w
    plainOrders plainSnapshotOrders Spl.tokenId.bytes bobRequest Spl.tokenId Toy.bob byBob one_ok one_consistent plain_before
    (one_respects (fun a c hm => by rw [streamed_before] at hm; exact update_stream hm))
    (by simp [loadedBefore, aliceChanges, messageOf, slotMsg]) (by decide) (before_first true) hr (serves_of hw) text_injective
    (bob_request (.inl rfl))
  refine ⟨w, shown, hr, s1, ?_⟩
  refine (s2 before Toy.alice _ (one_key streamed_before) (one_order streamed_before) (one_current streamed_before)).1 Toy.bob _ otherBytes
    ⟨?_, ?_⟩ rfl ?_
  · intro v hv hp sa hsa
    rw [one_owned] at hv
    simp only [List.mem_cons, List.not_mem_nil, or_false] at hv
    rcases hv with rfl | rfl
    · exact absurd hp (by decide +kernel)
    · obtain rfl := accountLayout_unique hsa (token_layout _ (by decide))
      rfl
  · intro a c hm _ bs sa hb hsa
    rw [streamed_before] at hm
    obtain rfl := update_stream hm
    cases hb
    obtain rfl := accountLayout_unique hsa other_layout
    rfl
  · intro f hf
    simp only [byBob, List.mem_cons, List.not_mem_nil, or_false] at hf
    rcases hf with rfl | rfl
    · exact other_layout.length
    · exact (allows_owner other_layout _).2 rfl

/-- `alice`'s account is handed to `prog2` at slot 4. -/
def handedBytes : Bytes := ({ splAccount with owner := Toy.prog2 }).pack

def handedOver : List Event :=
  afterLoading [messageOf (Toy.acct Toy.alice Spl.tokenId 7 4 1 handedBytes) handedBytes, slotMsg 4 .confirmed, slotMsg 4 .finalized]

/-- The owner and the amount shown for `alice`. -/
def ownerShown (w : Main) : Option Bytes :=
  match aliceInfo w none with
  | .ok (.ok ⟨_, some bs⟩) => some (field bs 32 32)
  | _ => none

/-- **C111**. `getAccountInfo` shows that `alice`'s account belongs to `prog2`, but it is listed neither for `prog2` nor for `bob`. -/
theorem C111_new_owner_missed : ∃ w, oneRun handedOver = .ok w ∧ w.serves ∧ w.listening = true ∧
    ownerShown w = some Toy.prog2.bytes ∧
    listShown w Spl.tokenId (requestOf [.dataSize 165, .memcmp 32 (.bytes Toy.prog2.bytes)]) = some [] ∧
    listShown w Spl.tokenId bobRequest = some [] := by
  obtain ⟨w, hr, hw⟩ := of_check (r := oneRun handedOver)
    (p := fun w => isDone w.loader && w.listening && decide (ownerShown w = some Toy.prog2.bytes) &&
      decide (listShown w Spl.tokenId (requestOf [.dataSize 165, .memcmp 32 (.bytes Toy.prog2.bytes)]) = some []) &&
      decide (listShown w Spl.tokenId bobRequest = some [])) (by decide +kernel)
  simp only [Bool.and_eq_true, decide_eq_true_eq] at hw
  exact ⟨w, hr, serves_of hw.1.1.1.1, hw.1.1.1.2, hw.1.1.2, hw.1.2, hw.2⟩

/-- **C111**. A filter on the amount is not looked at: asked for 12, the list has the 99. -/
theorem C111_filter_ignored : ∃ w, oneRun loadedBefore = .ok w ∧ w.serves ∧ w.listening = true ∧
    listShown w Spl.tokenId (requestOf [.dataSize 165, .memcmp 32 (.bytes Toy.bob.bytes), .memcmp 64 (.bytes [12])]) =
      some [(Toy.alice.bytes, 99)] := by
  obtain ⟨w, hr, hw⟩ := of_check (r := oneRun loadedBefore)
    (p := fun w => isDone w.loader && w.listening &&
      decide (listShown w Spl.tokenId (requestOf [.dataSize 165, .memcmp 32 (.bytes Toy.bob.bytes), .memcmp 64 (.bytes [12])]) =
        some [(Toy.alice.bytes, 99)])) (by decide +kernel)
  simp only [Bool.and_eq_true, decide_eq_true_eq] at hw
  exact ⟨w, hr, serves_of hw.1.1, hw.1.2, hw.2⟩

/-! ## C112: requests are answered -/

/-- The call returns an answer, possibly an error. -/
def Answered {α : Type} (r : Run α) : Prop := ∃ x, r = .ok x

/-- **C112**, as claimed: once the archive is loaded, and while the stream is followed and names older parents, every request is
answered. -/
def C112_statement : Prop :=
  ∀ (U : Type) (X : Codecs) (E : Rpc.Externals U) (L : Lz4Block) (decode : Bytes → Option Manifest) (items : List Item)
    (ws : List (Nat × Written)) (evs : List Event) (w : Main) (σ : Orders) (o : SnapshotOrders),
    WellFormedArchive decode items ws → Consistent (tokenOwned (ws.map (·.2))) → Plain evs → StreamRespects X ws evs →
    Event.hangUp ∉ evs → ws.length + evs.length < 2 ^ 31 → LoadsFirst X decode true evs (Main.start true items) →
    (∀ σ info c, TOp.slot σ info c ∈ streamed evs → info.parent < info.slot) →
    (Main.start true items).run X decode evs = .ok w → w.serves →
    (∀ key config, Answered (Rpc.getAccountInfo X E (storageOf X L σ o w.store) key config)) ∧
    (∀ key config, Answered (Rpc.getProgramAccounts X E (storageOf X L σ o w.store) key config)) ∧
    ∀ key, Answered (Rpc.getSnapshot E (storageOf X L σ o w.store) key)

theorem answered_of {α : Type} {r : Run α} (h1 : r ≠ .panic) (h2 : r ≠ .diverge) : Answered r := by
  cases r with
  | ok x => exact ⟨x, rfl⟩
  | panic => exact absurd rfl h1
  | diverge => exact absurd rfl h2

theorem exists_filters {X : Codecs} {config : Option Rpc.ProgramConfig}
    (h : ∀ c, config = some c → ∀ rs, c.filters = some rs → RpcFilter.tokenAccountState ∉ rs) : ∃ fs, FiltersFor X config fs := by
  rcases config with _ | ⟨_ | rs, ac, ctx⟩
  · exact ⟨none, trivial⟩
  · exact ⟨none, trivial⟩
  · have hn := h _ rfl rs rfl
    have : ∃ l, List.Forall₂ (SameFilter X) rs l := by
      clear h
      induction rs with
      | nil => exact ⟨[], .nil⟩
      | cons r rs ih =>
        obtain ⟨l, hl⟩ := ih (fun h => hn (List.mem_cons_of_mem _ h))
        cases r with
        | dataSize n => exact ⟨_ :: l, .cons rfl hl⟩
        | memcmp off b => cases b <;> exact ⟨_ :: l, .cons rfl hl⟩
        | tokenAccountState => exact absurd List.mem_cons_self hn
    obtain ⟨l, hl⟩ := this
    exact ⟨some l, hl⟩

/-- **C112**, the part that holds: no filter asks for the token account state, and queries for an owner and a mint name mints of
the archive. What is missing: both make the server panic. -/
theorem C112_partial {U : Type} (X : Codecs) (E : Rpc.Externals U) (L : Lz4Block) (decode : Bytes → Option Manifest)
    (items : List Item) (ws : List (Nat × Written)) (evs : List Event) (w : Main) (σ : Orders) (o : SnapshotOrders)
    (ha : WellFormedArchive decode items ws) (hc : Consistent (tokenOwned (ws.map (·.2)))) (hp : Plain evs)
    (hsr : StreamRespects X ws evs) (hh : Event.hangUp ∉ evs) (hn : ws.length + evs.length < 2 ^ 31)
    (hf : LoadsFirst X decode true evs (Main.start true items))
    (hold : ∀ σ info c, TOp.slot σ info c ∈ streamed evs → info.parent < info.slot)
    (hr : (Main.start true items).run X decode evs = .ok w) (hs : w.serves) :
    (∀ key config, Answered (Rpc.getAccountInfo X E (storageOf X L σ o w.store) key config)) ∧
    (∀ key config, (∀ c, config = some c → ∀ rs, c.filters = some rs → RpcFilter.tokenAccountState ∉ rs) →
      (∀ program l owner mint, E.parse key = some program → FiltersFor X config (some l) → AsksOwner program l owner →
        AsksMint program l mint → ArchiveMint ws mint) →
      Answered (Rpc.getProgramAccounts X E (storageOf X L σ o w.store) key config)) ∧
    ∀ key, Answered (Rpc.getSnapshot E (storageOf X L σ o w.store) key) := by
  obtain ⟨hl, ix, n, slots, orig, rdy, inv⟩ := served_ready ha hc hp hsr hh (by omega) hf hr hs
  obtain ⟨ops, i1, i2, -⟩ := served_feed ha hp hr hs hl
  obtain ⟨e1, e2⟩ := C53_reads_end_partial X ops w.store (fun σ info c hm => by
    rcases (interleaved_mem i1 _).1 hm with h | h
    · obtain ⟨v, -, h⟩ := archived_kind h
      cases h
    · exact hold σ info c h) i2
  refine ⟨?_, ?_, ?_⟩
  · intro key config
    cases hk : E.parse key with
    | none => exact ⟨.error .invalidParams, by simp only [Rpc.getAccountInfo, hk]⟩
    | some pk =>
      obtain ⟨r, hg⟩ := answered_of (getAccount_ready inv rdy pk (commitmentFor config)) (e1 pk (commitmentFor config))
      cases r with
      | none => exact ⟨_, info_none hk hg⟩
      | some r =>
        obtain ⟨d, hd⟩ := (raw_read hg).readable (X := X)
        obtain ⟨u, hu, -⟩ := info_some (X := X) (E := E) (L := L) (σ := σ) (o := o) hk hg hd
        exact ⟨_, hu⟩
  · intro key config h1 h2
    cases hk : E.parse key with
    | none => exact ⟨.error .internal, by simp only [Rpc.getProgramAccounts, hk]⟩
    | some program =>
      obtain ⟨fs, hfs⟩ := exists_filters (X := X) h1
      obtain ⟨r, hg⟩ := answered_of
        (getProgramAccounts_ready (X := X) inv rdy σ program fs (Commitment.ofConfig ((config.bind (·.account.commitment)).getD Rpc.defaultCommitment)) (by
          rintro l rfl
          refine ⟨fun f hf d => ?_, fun ow m e => ?_⟩
          · obtain ⟨b, hb, -⟩ := allows_ok X f d (filters_wellFormed hfs l rfl f hf)
            exact ⟨b, hb⟩
          · obtain ⟨c1, c2⟩ := C71_recognised program l
            rw [rdy.known m (h2 program l ow m hk hfs ((c1 ow).1 (by rw [e])) ((c2 m).1 (by rw [e])))]
            simp)) (e2 σ program fs _)
      simp only [Rpc.getProgramAccounts, hk, filters_for hfs, Run.ok_bind, storageOf, hg]
      cases r with
      | error e => exact ⟨_, rfl⟩
      | ok gpa =>
        obtain ⟨shown, hs⟩ := keyed_total (X := X) (E := E) (((config.map (fun c => if c.withContext.getD false then c.account.minContextSlot else none)).getD none).getD 0)
          (config.map (·.account)) gpa (fun a h => (raw_query hg a h).readable)
        simp only [hs, Run.ok_bind]
        split <;> exact ⟨_, rfl⟩
  · intro key
    cases hk : E.parse key with
    | none => exact ⟨.error .invalidParams, by simp only [Rpc.getSnapshot, hk]⟩
    | some program =>
      simp only [Rpc.getSnapshot, hk, storageOf, TokenStore.createSnapshot]
      cases hpr : TokenStore.programOf program with
      | none => exact ⟨_, rfl⟩
      | some p =>
        simp only [snapshotOf_eq inv.fin, Run.ok_bind]
        cases L.compress _ <;> exact ⟨_, rfl⟩

/-- C112 is false: the token account state cannot be asked for. -/
theorem C112_refuted : ¬ C112_statement := by
  intro h
  obtain ⟨w, hr, hw⟩ := of_check (r := oneRun loadedBefore) (p := fun w => isDone w.loader) (by decide +kernel)
  obtain ⟨x, hx⟩ := (h Bytes Toy.codecs bytesExternals plainLz4 oneDecode (archiveOf oneFile) oneAccounts loadedBefore w plainOrders
    plainSnapshotOrders one_ok one_consistent plain_before
    (one_respects (fun a c hm => by rw [streamed_before] at hm; exact update_stream hm))
    (by simp [loadedBefore, aliceChanges, messageOf, slotMsg]) (by decide) (before_first true)
    (fun σ info c hm => by
      rw [streamed_before] at hm
      simp only [oneStream, List.mem_cons, List.not_mem_nil, or_false, reduceCtorEq, false_or, TOp.slot.injEq] at hm
      rcases hm with ⟨-, rfl, -⟩ | ⟨-, rfl, -⟩ | ⟨-, rfl, -⟩ <;> simp) hr (serves_of hw)).2.1 Spl.tokenId.bytes (requestOf [.tokenAccountState])
  have : Rpc.getProgramAccounts Toy.codecs bytesExternals (storageOf Toy.codecs plainLz4 plainOrders plainSnapshotOrders w.store)
      Spl.tokenId.bytes (requestOf [.tokenAccountState]) = .panic := rfl
  rw [this] at hx
  cases hx

def _root_.LAM.Run.panics {α : Type} : Run α → Bool
  | .panic => true
  | _ => false

theorem panics_eq {α : Type} {r : Run α} (h : r.panics = true) : r = .panic := by
  cases r <;> simp [Run.panics] at h ⊢

/-- **C112**. The same panic comes from a query for an owner and a mint that is not stored. -/
theorem C112_unknown_mint : ∃ w, oneRun loadedBefore = .ok w ∧ w.serves ∧
    listAnswer w Spl.tokenId (requestOf [.dataSize 165, .memcmp 0 (.bytes Toy.prog2.bytes), .memcmp 32 (.bytes Toy.bob.bytes)]) = .panic := by
  obtain ⟨w, hr, hw⟩ := of_check (r := oneRun loadedBefore)
    (p := fun w => isDone w.loader && (listAnswer w Spl.tokenId
      (requestOf [.dataSize 165, .memcmp 0 (.bytes Toy.prog2.bytes), .memcmp 32 (.bytes Toy.bob.bytes)])).panics) (by decide +kernel)
  simp only [Bool.and_eq_true] at hw
  exact ⟨w, hr, serves_of hw.1, panics_eq hw.2⟩

/-- In the sample, requests for the accounts of `bob` are answered at every commitment. -/
example : ∃ w, oneRun loadedBefore = .ok w ∧ ∀ level, Answered (listAnswer w Spl.tokenId
    (some ⟨some [.dataSize 165, .memcmp 32 (.bytes Toy.bob.bytes)], ⟨none, none, level, none⟩, some true⟩)) := by
  obtain ⟨w, hr, hw⟩ := of_check (r := oneRun loadedBefore) (p := fun w => isDone w.loader) (by decide +kernel)
  refine ⟨w, hr, fun level => ?_⟩
  refine (C112_partial Toy.codecs bytesExternals plainLz4 oneDecode (archiveOf oneFile) oneAccounts loadedBefore w plainOrders
    plainSnapshotOrders one_ok one_consistent plain_before
    (one_respects (fun a c hm => by rw [streamed_before] at hm; exact update_stream hm))
    (by simp [loadedBefore, aliceChanges, messageOf, slotMsg]) (by decide) (before_first true)
    (fun σ info c hm => by
      rw [streamed_before] at hm
      simp only [oneStream, List.mem_cons, List.not_mem_nil, or_false, reduceCtorEq, false_or, TOp.slot.injEq] at hm
      rcases hm with ⟨-, rfl, -⟩ | ⟨-, rfl, -⟩ | ⟨-, rfl, -⟩ <;> simp) hr (serves_of hw)).2.1 _ _ ?_ ?_
  · rintro c rfl' rs h
    cases rfl'
    cases h
    simp
  · intro program l owner mint h1 h2 h3 h4
    have e : program = Spl.tokenId := by
      have : bytesExternals.parse Spl.tokenId.bytes = some Spl.tokenId := by decide +kernel
      rw [this] at h1; cases h1; rfl
    subst e
    cases h2 with
    | cons a b => cases b with
      | cons b c => cases c; cases a; cases b; exact absurd h4 (asks_byBob.2 mint)

end LAM.Props
