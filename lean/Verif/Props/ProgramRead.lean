import Verif.Lemmas.ProgramRead
import Verif.Props.Program
/-!
# C109, C110: what the simulator program answers about unfinalized slots
-/
namespace LAM.Props
open Spec Token Sim ProcStore
open TokenStore (TOp)

/-- **C109**, as claimed: once the archive is loaded, and while the stream is followed and in order, `getAccountInfo` at the
confirmed commitment shows a token account in its newest state on the chain of the highest confirmed slot. -/
def C109_statement : Prop :=
  ∀ (U : Type) (X : Codecs) (E : Rpc.Externals U) (L : Lz4Block) (decode : Bytes → Option Manifest) (items : List Item)
    (ws : List (Nat × Written)) (evs : List Event) (w : Main) (par : Nat → Nat) (pk : Pubkey) (slot : Nat)
    (d : Option (Pubkey × Bytes)) (σ : Orders) (o : SnapshotOrders) (key : Bytes) (config : Option Rpc.AccountConfig),
    WellFormedArchive decode items ws → Consistent (tokenOwned (ws.map (·.2))) → Plain evs → StreamRespects X ws evs →
    ws.length + evs.length < 2 ^ 31 → (Main.start true items).run X decode evs = .ok w → w.serves → w.listening = true →
    LoadsFirst X decode false evs (Main.start true items) →
    TokenKey ws evs pk → InOrder X par evs pk → CurrentAt ws evs par pk (confirmedOf (streamed evs)) slot d →
    E.parse key = some pk → commitmentFor config = .confirmed →
    AnswersToken X E config pk slot (Rpc.getAccountInfo X E (storageOf X L σ o w.store) key config) d

/-- **C110**, as claimed: the same at the processed commitment, with the highest slot the stream has mentioned. -/
def C110_statement : Prop :=
  ∀ (U : Type) (X : Codecs) (E : Rpc.Externals U) (L : Lz4Block) (decode : Bytes → Option Manifest) (items : List Item)
    (ws : List (Nat × Written)) (evs : List Event) (w : Main) (par : Nat → Nat) (pk : Pubkey) (slot : Nat)
    (d : Option (Pubkey × Bytes)) (σ : Orders) (o : SnapshotOrders) (key : Bytes) (config : Option Rpc.AccountConfig),
    WellFormedArchive decode items ws → Consistent (tokenOwned (ws.map (·.2))) → Plain evs → StreamRespects X ws evs →
    ws.length + evs.length < 2 ^ 31 → (Main.start true items).run X decode evs = .ok w → w.serves → w.listening = true →
    LoadsFirst X decode false evs (Main.start true items) →
    TokenKey ws evs pk → InOrder X par evs pk → CurrentAt ws evs par pk (highestSlot (streamed evs)) slot d →
    E.parse key = some pk → commitmentFor config = .processed →
    AnswersToken X E config pk slot (Rpc.getAccountInfo X E (storageOf X L σ o w.store) key config) d

theorem feed_length {ws : List (Nat × Written)} {evs : List Event} {ops : List TOp} (h : Interleaved (archived ws) (streamed evs) ops)
    (hn : ws.length + evs.length < 2 ^ 31) : ops.length < 2 ^ 31 := by
  rw [interleaved_length h]
  have e1 := archived_length ws
  have e2 : (streamed evs).length ≤ evs.length := List.length_filterMap_le _ _
  omega

/-- What the store gives is answered. -/
theorem answers_of {U : Type} {X : Codecs} {E : Rpc.Externals U} {L : Lz4Block} {s : TokenStore} {pk : Pubkey} {slot : Nat}
    {d : Option (Pubkey × Bytes)} {σ : Orders} {o : SnapshotOrders} {key : Bytes} {config : Option Rpc.AccountConfig} {c : Commitment}
    (hkey : E.parse key = some pk) (hcom : commitmentFor config = c)
    (h : (d = none → s.getAccount pk c = .ok none) ∧
      ∀ owner bs, d = some (owner, bs) → ∃ r bs' sa sa', s.getAccount pk c = .ok (some r) ∧ r.pubkey = pk ∧
        r.slot = slot ∧ r.account.owner = owner ∧ HonestData X r.account.data bs' ∧
        AccountLayout bs sa ∧ AccountLayout bs' sa' ∧ SameToken sa sa') :
    AnswersToken X E config pk slot (Rpc.getAccountInfo X E (storageOf X L σ o s) key config) d := by
  obtain ⟨g1, g2⟩ := h
  cases d with
  | none => exact info_none hkey (by rw [hcom]; exact g1 rfl)
  | some p =>
    obtain ⟨owner, bs⟩ := p
    obtain ⟨r, bs', sa, sa', e1, e2, e3, e4, e5, e6, e7, e8⟩ := g2 owner bs rfl
    obtain ⟨u, e9, e10⟩ := info_some (X := X) (E := E) (L := L) (σ := σ) (o := o) hkey (by rw [hcom]; exact e1) e5.1
    exact ⟨u, r, bs', sa, sa', by rw [e9, e3], e10, e2, e4, e5.1, e6, e7, e8⟩

/-- **C109**, the part that holds: every slot between the confirmed slot and the newest state was notified as confirmed when it
had already occurred. Slots need not be loaded first unless the finalized state is shown. What is missing: a confirmed slot in
which no token account changed cuts the chain. -/
theorem C109_partial {U : Type} (X : Codecs) (E : Rpc.Externals U) (L : Lz4Block) (decode : Bytes → Option Manifest)
    (items : List Item) (ws : List (Nat × Written)) (evs : List Event) (w : Main) (par : Nat → Nat) (pk : Pubkey) (slot : Nat)
    (d : Option (Pubkey × Bytes)) (σ : Orders) (o : SnapshotOrders) (key : Bytes) (config : Option Rpc.AccountConfig)
    (ha : WellFormedArchive decode items ws) (hc : Consistent (tokenOwned (ws.map (·.2)))) (hp : Plain evs)
    (hsr : StreamRespects X ws evs) (hn : ws.length + evs.length < 2 ^ 31)
    (hr : (Main.start true items).run X decode evs = .ok w) (hs : w.serves) (hl : w.listening = true)
    (hlf : (∀ a k, NewestTrue (streamed evs) par pk (confirmedOf (streamed evs)) a k → k ≤ lastFinal (streamed evs)) →
      LoadsFirst X decode false evs (Main.start true items))
    (hk : TokenKey ws evs pk) (hio : InOrder X par evs pk) (hd : CurrentAt ws evs par pk (confirmedOf (streamed evs)) slot d)
    (hkey : E.parse key = some pk) (hcom : commitmentFor config = .confirmed)
    (hln : ∀ a k, NewestTrue (streamed evs) par pk (confirmedOf (streamed evs)) a k → lastFinal (streamed evs) < k →
      ∀ i, Ancestor par (confirmedOf (streamed evs)) i → Ancestor par i k → i ≠ k → LinkNoted X (streamed evs) i) :
    AnswersToken X E config pk slot (Rpc.getAccountInfo X E (storageOf X L σ o w.store) key config) d := by
  obtain ⟨ops, h1, h2, h3⟩ := served_feed ha hp hr hs hl
  have hlen := feed_length h1 hn
  obtain ⟨c1, c2⟩ := feed_confirmed (feed_accepted hk h1) hio h1 hlen h2
  exact answers_of hkey hcom (feed_at hc hsr hk hio h1 hlen h2 (fun h _ _ => h3 (hlf h) pk)
    (fun a k g1 g2 => c1 a k g1 g2 (hln a k g1 g2)) c2 hd)

/-- **C110**, the part that holds: the confirmed slot and the states of the account above it are on the chain of the highest
slot, and the links below the confirmed slot are as in C109. What is missing: above the confirmed slot the store does not look
at forks. -/
theorem C110_partial {U : Type} (X : Codecs) (E : Rpc.Externals U) (L : Lz4Block) (decode : Bytes → Option Manifest)
    (items : List Item) (ws : List (Nat × Written)) (evs : List Event) (w : Main) (par : Nat → Nat) (pk : Pubkey) (slot : Nat)
    (d : Option (Pubkey × Bytes)) (σ : Orders) (o : SnapshotOrders) (key : Bytes) (config : Option Rpc.AccountConfig)
    (ha : WellFormedArchive decode items ws) (hc : Consistent (tokenOwned (ws.map (·.2)))) (hp : Plain evs)
    (hsr : StreamRespects X ws evs) (hn : ws.length + evs.length < 2 ^ 31)
    (hr : (Main.start true items).run X decode evs = .ok w) (hs : w.serves) (hl : w.listening = true)
    (hlf : (∀ a k, NewestTrue (streamed evs) par pk (highestSlot (streamed evs)) a k → k ≤ lastFinal (streamed evs)) →
      LoadsFirst X decode false evs (Main.start true items))
    (hk : TokenKey ws evs pk) (hio : InOrder X par evs pk) (hd : CurrentAt ws evs par pk (highestSlot (streamed evs)) slot d)
    (hkey : E.parse key = some pk) (hcom : commitmentFor config = .processed)
    (htip : ∀ k, confirmedOf (streamed evs) < k → lastFinal (streamed evs) < k → submittedAt (streamed evs) pk k ≠ [] →
      Ancestor par (highestSlot (streamed evs)) k)
    (hcon : Ancestor par (highestSlot (streamed evs)) (confirmedOf (streamed evs)))
    (hln : ∀ a k, NewestTrue (streamed evs) par pk (confirmedOf (streamed evs)) a k → lastFinal (streamed evs) < k →
      ∀ i, Ancestor par (confirmedOf (streamed evs)) i → Ancestor par i k → i ≠ k → LinkNoted X (streamed evs) i) :
    AnswersToken X E config pk slot (Rpc.getAccountInfo X E (storageOf X L σ o w.store) key config) d := by
  obtain ⟨ops, h1, h2, h3⟩ := served_feed ha hp hr hs hl
  have hlen := feed_length h1 hn
  obtain ⟨c1, c2⟩ := feed_processed (feed_accepted hk h1) hio h1 hlen h2 htip hcon
  refine answers_of hkey hcom (feed_at hc hsr hk hio h1 hlen h2 (fun h _ _ => h3 (hlf h) pk) ?_ c2 hd)
  intro a k g1 g2
  refine c1 a k g1 g2 (fun i i1 i2 i3 => ?_)
  have hkc : k ≤ confirmedOf (streamed evs) := by
    have e1 := ancestor_le hio.older i1
    have e2 := ancestor_le hio.older i2
    omega
  exact hln a k (newest_between hio.older g1 hcon hkc) g2 i i1 i2 i3

/-! ## Samples: `alice` and `bob` change, slots are confirmed, none is finalized -/

/-- `alice` has 99 at this slot. -/
def aliceAt (slot : Nat) : Event := messageOf (otherAcct slot 1) otherBytes

/-- `bob` has 12 at this slot. -/
def bobAt (slot : Nat) : Event := messageOf (tokenAcct Toy.bob slot 1) splAccount.pack

def confirms (slot parent : Nat) : Event := .message plainOrders (.slot slot parent .confirmed)

def Sampled (par : Nat → Nat) (evs : List Event) : Prop :=
  ∀ e ∈ evs, e = .load ∨ (∃ k, 0 < k ∧ (e = aliceAt k ∨ e = bobAt k)) ∨ ∃ k, 0 < k ∧ par k < k ∧ e = confirms k (par k)

theorem sampled_plain {par : Nat → Nat} {evs : List Event} (h : Sampled par evs) : Plain evs := by
  intro σ pubkey lamports data compression owner executable rentEpoch slot writeVersion hm
  rcases h _ hm with h | ⟨k, -, h | h⟩ | ⟨k, -, -, h⟩
  · simp at h
  · simp only [aliceAt, messageOf, Event.message.injEq, Message.account.injEq] at h
    exact h.2.2.2.2.1
  · simp only [bobAt, messageOf, Event.message.injEq, Message.account.injEq] at h
    exact h.2.2.2.2.1
  · simp [confirms] at h

theorem sampled_stream {par : Nat → Nat} {evs : List Event} (h : Sampled par evs) {o : TOp} (ho : o ∈ streamed evs) :
    (∃ k, 0 < k ∧ (o = .update (otherAcct k 1) .processed ∨ o = .update (tokenAcct Toy.bob k 1) .processed)) ∨
    ∃ k, 0 < k ∧ par k < k ∧ o = .slot plainOrders ⟨k, par k, 0⟩ .confirmed := by
  simp only [streamed, List.mem_filterMap] at ho
  obtain ⟨e, he, ho⟩ := ho
  rcases h e he with rfl | ⟨k, hk, rfl | rfl⟩ | ⟨k, hk, hp, rfl⟩
  · simp at ho
  · simp only [aliceAt, messageOf, reported, Option.some.injEq] at ho
    exact .inl ⟨k, hk, .inl ho.symm⟩
  · simp only [bobAt, messageOf, reported, Option.some.injEq] at ho
    exact .inl ⟨k, hk, .inr ho.symm⟩
  · simp only [confirms, reported, Option.some.injEq] at ho
    exact .inr ⟨k, hk, hp, ho.symm⟩

theorem spl_layout : AccountLayout splAccount.pack splAccount :=
  C45_pack_is_layout.1 _ (by constructor <;> simp [splAccount])

theorem sampled_respects {par : Nat → Nat} {evs : List Event} (h : Sampled par evs) : StreamRespects Toy.codecs oneAccounts evs := by
  intro a c hm
  rcases sampled_stream h hm with ⟨k, -, h | h⟩ | ⟨k, -, -, h⟩
  · cases h
    refine ⟨⟨otherBytes, ⟨rfl, rfl⟩, ?_⟩, fun _ => ⟨by simp [otherAcct, Toy.acct], .inl rfl⟩⟩
    intro sa hl
    obtain rfl := accountLayout_unique hl other_layout
    exact ⟨⟨wMint, by rw [one_owned]; simp, rfl, _, mint_layout⟩, trivial⟩
  · cases h
    refine ⟨⟨splAccount.pack, ⟨rfl, rfl⟩, ?_⟩, fun _ => ⟨by simp [tokenAcct, Toy.acct], .inl rfl⟩⟩
    intro sa hl
    obtain rfl := accountLayout_unique hl spl_layout
    exact ⟨⟨wMint, by rw [one_owned]; simp, rfl, _, mint_layout⟩, trivial⟩
  · cases h

theorem sampled_key {par : Nat → Nat} {evs : List Event} (h : Sampled par evs) : TokenKey oneAccounts evs Toy.alice := by
  refine ⟨?_, ?_, ?_⟩
  · intro w hw hp
    rw [one_owned] at hw
    simp only [List.mem_cons, List.not_mem_nil, or_false] at hw
    rcases hw with rfl | rfl
    · exact absurd hp (by decide +kernel)
    · exact ⟨_, token_layout _ (by decide)⟩
  · intro a c hm hpk
    rcases sampled_stream h hm with ⟨k, -, h | h⟩ | ⟨k, -, -, h⟩
    · cases h; exact ⟨.inl rfl, .inr ⟨otherBytes, _, rfl, other_layout⟩⟩
    · cases h; exact absurd hpk (show Toy.bob ≠ Toy.alice by decide +kernel)
    · cases h
  · intro a c hm hpk _
    rcases sampled_stream h hm with ⟨k, -, h | h⟩ | ⟨k, -, -, h⟩
    · cases h; exact absurd rfl hpk
    · cases h; exact ⟨by simp [tokenAcct, Toy.acct], .inl rfl⟩
    · cases h

theorem lastFinal_none {ops : List TOp} (h : ∀ σ info, TOp.slot σ info .finalized ∉ ops) : lastFinal ops = 0 := by
  induction ops using List.reverseRecOn with
  | nil => rfl
  | append_singleton ops o ih =>
    rw [lastFinal_snoc_of (fun σ info e => h σ info (by simp [e]))]
    exact ih (fun σ info hm => h σ info (by simp [hm]))

theorem sampled_final {par : Nat → Nat} {evs : List Event} (h : Sampled par evs) (σ : Orders) (info : SlotInfo) :
    TOp.slot σ info .finalized ∉ streamed evs := by
  intro hm
  rcases sampled_stream h hm with ⟨k, -, h | h⟩ | ⟨k, -, -, h⟩ <;> cases h

theorem sampled_order {par : Nat → Nat} {evs : List Event} (hd : ∀ i, par i ≤ i) (h : Sampled par evs) :
    InOrder Toy.codecs par evs Toy.alice := by
  refine ⟨hd, ?_, ?_, ?_⟩
  · intro σ info c hm
    rcases sampled_stream h hm with ⟨k, -, h | h⟩ | ⟨k, -, hp, h⟩ <;> cases h
    exact ⟨rfl, hp⟩
  · intro pre a c post e _
    rw [lastFinal_none (fun σ info hm => sampled_final h σ info (by rw [e]; simp [hm]))]
    rcases sampled_stream h (o := .update a c) (by rw [e]; simp) with ⟨k, hk, h | h⟩ | ⟨k, -, -, h⟩ <;> cases h <;> exact hk
  · intro pre σ info post e
    exact absurd (by rw [e]; simp) (sampled_final h σ info)

theorem sampled_first {par : Nat → Nat} {evs : List Event} (h : Sampled par evs) :
    LoadsFirst Toy.codecs oneDecode false evs (Main.start true (archiveOf oneFile)) := by
  rintro pre σ slot parent level post e (rfl | ⟨h, -⟩)
  · rcases h _ (by rw [e]; exact List.mem_append_right _ (List.mem_cons_self ..)) with h | ⟨k, -, h | h⟩ | ⟨k, -, -, h⟩ <;>
      simp [aliceAt, bobAt, messageOf, confirms] at h
  · simp at h

def confirmedConfig : Option Rpc.AccountConfig := some ⟨none, none, some .confirmed, none⟩
def processedConfig : Option Rpc.AccountConfig := some ⟨none, none, some .processed, none⟩

/-- The answer about `alice`. -/
def aliceInfo (w : Main) (config : Option Rpc.AccountConfig) : Run (Except Rpc.Error (Rpc.Response (Option Bytes))) :=
  Rpc.getAccountInfo Toy.codecs bytesExternals (storageOf Toy.codecs plainLz4 plainOrders plainSnapshotOrders w.store) Toy.alice.bytes config

/-- The slot and the amount shown for `alice`, if any. -/
def infoShown (w : Main) (config : Option Rpc.AccountConfig) : Option (Nat × Nat) :=
  match aliceInfo w config with
  | .ok (.ok ⟨slot, some bs⟩) => some (slot, leNat (field bs 64 8))
  | _ => none

theorem shown_amount {w : Main} {config : Option Rpc.AccountConfig} {slot : Nat} {owner : Pubkey} {bs : Bytes} {sa : Spl.Account}
    (hcfg : config = confirmedConfig ∨ config = processedConfig)
    (h : AnswersToken Toy.codecs bytesExternals config Toy.alice slot (aliceInfo w config) (some (owner, bs))) (hl : AccountLayout bs sa) :
    infoShown w config = some (slot, sa.amount) := by
  obtain ⟨u, a, d, sa1, sa', e1, ⟨d', e2, _, _, -, -, e3⟩, -, -, e4, e5, e6, e7⟩ := h
  rw [e4] at e2; cases e2
  have hu : u = d := by rcases hcfg with rfl | rfl <;> exact e3
  subst hu
  obtain rfl := accountLayout_unique e5 hl
  rw [infoShown, e1]
  have g1 := e6.amount
  have g2 := e7.amount
  simp only [Option.some.injEq, Prod.mk.injEq, true_and]
  omega

/-- Five loads, then the stream. -/
def afterLoading (evs : List Event) : List Event := [.load, .load, .load, .load, .load] ++ evs

/-- `alice` changes at slot 4; slot 5 is empty. -/
def emptySlot : List Event := afterLoading [aliceAt 4, confirms 4 3, confirms 5 4]

theorem sampled_cons {par : Nat → Nat} {e : Event} {evs : List Event}
    (he : e = .load ∨ (∃ k, 0 < k ∧ (e = aliceAt k ∨ e = bobAt k)) ∨ ∃ k, 0 < k ∧ par k < k ∧ e = confirms k (par k))
    (h : Sampled par evs) : Sampled par (e :: evs) := by
  intro e' he'
  rcases List.mem_cons.1 he' with rfl | he'
  · exact he
  · exact h e' he'

theorem sampled_nil {par : Nat → Nat} : Sampled par [] := fun _ h => absurd h (by simp)

theorem sampled_loaded {par : Nat → Nat} {evs : List Event} (h : Sampled par evs) : Sampled par (afterLoading evs) :=
  sampled_cons (.inl rfl) (sampled_cons (.inl rfl) (sampled_cons (.inl rfl) (sampled_cons (.inl rfl) (sampled_cons (.inl rfl) h))))

theorem empty_sampled : Sampled before emptySlot :=
  sampled_loaded (sampled_cons (.inr (.inl ⟨4, by decide, .inl rfl⟩)) (sampled_cons (.inr (.inr ⟨4, by decide, by decide, rfl⟩))
    (sampled_cons (.inr (.inr ⟨5, by decide, by decide, rfl⟩)) sampled_nil)))

/-- C109 is false: slot 5 is confirmed, `alice` has 99 since slot 4, but the 12 of the archive is shown. -/
theorem C109_refuted : ¬ C109_statement := by
  intro h
  obtain ⟨w, hr, hw⟩ := of_check (r := oneRun emptySlot)
    (p := fun w => isDone w.loader && w.listening && decide (infoShown w confirmedConfig = some (0, 12))) (by decide +kernel)
  simp only [Bool.and_eq_true, decide_eq_true_eq] at hw
  obtain ⟨⟨h1, h2⟩, h3⟩ := hw
  have hS := empty_sampled
  have hF : lastFinal (streamed emptySlot) = 0 := lastFinal_none (sampled_final hS)
  have hC : confirmedOf (streamed emptySlot) = 5 := by decide +kernel
  have hnew : NewestTrue (streamed emptySlot) before Toy.alice (confirmedOf (streamed emptySlot)) (otherAcct 4 1) 4 := by
    rw [hC]
    exact .up (by decide +kernel) (.here ⟨[], [], by decide +kernel, by simp, by simp⟩)
  have := h Bytes Toy.codecs bytesExternals plainLz4 oneDecode
    (archiveOf oneFile) oneAccounts emptySlot w before Toy.alice 4 (some (Spl.tokenId, otherBytes)) plainOrders plainSnapshotOrders
    Toy.alice.bytes confirmedConfig one_ok one_consistent (sampled_plain hS) (sampled_respects hS) (by decide) hr (serves_of h1) h2
    (sampled_first hS) (sampled_key hS) (sampled_order before_le hS)
    (CurrentAt.open (a := otherAcct 4 1) hnew (by rw [hF]; decide) (by simp [otherAcct, Toy.acct]) rfl) (by decide +kernel) rfl
  have := shown_amount (.inl rfl) this other_layout
  rw [h3] at this
  simp at this

/-- `alice` changes at slot 4, `bob` at slot 5. -/
def busySlot : List Event := afterLoading [aliceAt 4, confirms 4 3, bobAt 5, confirms 5 4]

theorem busy_sampled : Sampled before busySlot :=
  sampled_loaded (sampled_cons (.inr (.inl ⟨4, by decide, .inl rfl⟩)) (sampled_cons (.inr (.inr ⟨4, by decide, by decide, rfl⟩))
    (sampled_cons (.inr (.inl ⟨5, by decide, .inr rfl⟩)) (sampled_cons (.inr (.inr ⟨5, by decide, by decide, rfl⟩)) sampled_nil))))

/-- The hypotheses of `C109_partial` hold if a token account changed in slot 5, and the 99 is shown. -/
example : ∃ w, oneRun busySlot = .ok w ∧ AnswersToken Toy.codecs bytesExternals confirmedConfig Toy.alice 4 (aliceInfo w confirmedConfig)
    (some (Spl.tokenId, otherBytes)) := by
  obtain ⟨w, hr, hw⟩ := of_check (r := oneRun busySlot) (p := fun w => isDone w.loader && w.listening) (by decide +kernel)
  simp only [Bool.and_eq_true] at hw
  obtain ⟨h1, h2⟩ := hw
  have hS := busy_sampled
  have hF : lastFinal (streamed busySlot) = 0 := lastFinal_none (sampled_final hS)
  have hC : confirmedOf (streamed busySlot) = 5 := by decide +kernel
  have hnew : NewestTrue (streamed busySlot) before Toy.alice (confirmedOf (streamed busySlot)) (otherAcct 4 1) 4 := by
    rw [hC]
    exact .up (by decide +kernel) (.here ⟨[], [], by decide +kernel, by simp, by simp⟩)
  refine ⟨w, hr, C109_partial Toy.codecs bytesExternals plainLz4 oneDecode
    (archiveOf oneFile) oneAccounts busySlot w before Toy.alice 4 (some (Spl.tokenId, otherBytes)) plainOrders plainSnapshotOrders
    Toy.alice.bytes confirmedConfig one_ok one_consistent (sampled_plain hS) (sampled_respects hS) (by decide) hr (serves_of h1) h2
    (fun _ => sampled_first hS) (sampled_key hS) (sampled_order before_le hS)
    (CurrentAt.open (a := otherAcct 4 1) hnew (by rw [hF]; decide) (by simp [otherAcct, Toy.acct]) rfl) (by decide +kernel) rfl ?_⟩
  intro a k hk _ i i1 i2 i3
  have e1 := newest_top before_le hk (i := 4) (by rw [hC]; exact .up .here) (by decide +kernel)
  have e2 := ancestor_le before_le i1
  have e3 := ancestor_le before_le i2
  rw [hC] at e2
  obtain rfl : i = 5 := by omega
  exact ⟨(streamed busySlot).take 3, plainOrders, ⟨5, 4, 0⟩, .confirmed, [], rfl, rfl,
    .inr ⟨tokenAcct Toy.bob 5 1, .processed, .tail _ (.tail _ (.head _)), by decide, rfl, .inl rfl,
      fun T => ⟨_, _, classify_tokenAcct T Toy.bob 5 1⟩⟩, .inr ⟨rfl, by decide +kernel⟩⟩

/-- Slot 5 is not an ancestor of slot 6. -/
def forkAt6 (i : Nat) : Nat := if i = 6 then 4 else before i

theorem fork_le (i : Nat) : forkAt6 i ≤ i := by
  unfold forkAt6
  split
  · omega
  · exact before_le i

/-- `alice` changes at slot 5, which is on another fork than slot 6. -/
def abandoned : List Event := afterLoading [confirms 4 3, aliceAt 5, bobAt 6]

theorem abandoned_sampled : Sampled forkAt6 abandoned :=
  sampled_loaded (sampled_cons (.inr (.inr ⟨4, by decide, by decide, rfl⟩)) (sampled_cons (.inr (.inl ⟨5, by decide, .inl rfl⟩))
    (sampled_cons (.inr (.inl ⟨6, by decide, .inr rfl⟩)) sampled_nil)))

/-- C110 is false: the highest slot is 6, `alice` has 12 there, but the 99 of the other fork is shown. -/
theorem C110_refuted : ¬ C110_statement := by
  intro h
  obtain ⟨w, hr, hw⟩ := of_check (r := oneRun abandoned)
    (p := fun w => isDone w.loader && w.listening && decide (infoShown w processedConfig = some (5, 99))) (by decide +kernel)
  simp only [Bool.and_eq_true, decide_eq_true_eq] at hw
  obtain ⟨⟨h1, h2⟩, h3⟩ := hw
  have hS := abandoned_sampled
  have hF : lastFinal (streamed abandoned) = 0 := lastFinal_none (sampled_final hS)
  have hC : highestSlot (streamed abandoned) = 6 := by decide +kernel
  have hsub : ∀ k, submittedAt (streamed abandoned) Toy.alice k ≠ [] → k = 5 := by
    intro k hk
    by_contra hne
    apply hk
    have e : streamed abandoned = [.slot plainOrders ⟨4, 3, 0⟩ .confirmed, .update (otherAcct 5 1) .processed,
      .update (tokenAcct Toy.bob 6 1) .processed] := rfl
    rw [e]
    have hb : (tokenAcct Toy.bob 6 1).pubkey ≠ Toy.alice := by decide +kernel
    have h5 : (otherAcct 5 1).slot = 5 := rfl
    simp [submittedAt, h5, hb, Ne.symm hne]
  have hnone : ∀ t, (t = 6 ∨ t = 0) → ∀ a k, ¬ NewestTrue (streamed abandoned) forkAt6 Toy.alice t a k := by
    intro t ht a k hk
    have e5 := hsub k (newest_submitted hk)
    subst e5
    have ha := ancestor_of_newest hk
    rcases ht with rfl | rfl
    · cases ha with
      | up ha =>
        have := ancestor_le fork_le ha
        simp [forkAt6] at this
    · have := ancestor_le fork_le ha
      omega
  have hcur : CurrentAt oneAccounts abandoned forkAt6 Toy.alice (highestSlot (streamed abandoned)) 0
      (some (Spl.tokenId, (wToken Toy.alice 12).data)) := by
    rw [hC]
    have := CurrentAt.final (ws := oneAccounts) (evs := abandoned) (par := forkAt6) (pk := Toy.alice) (tip := 6)
      (fun a k hk => absurd hk (hnone 6 (.inl rfl) a k))
      (.archive (w := wToken Toy.alice 12) (by rw [hF]; exact hnone 0 (.inr rfl))
        (by rw [one_owned]; exact ⟨[wMint], [], rfl, by simp⟩) rfl)
    rw [hF] at this
    exact this
  have := h Bytes Toy.codecs bytesExternals plainLz4 oneDecode
    (archiveOf oneFile) oneAccounts abandoned w forkAt6 Toy.alice 0 _ plainOrders plainSnapshotOrders
    Toy.alice.bytes processedConfig one_ok one_consistent (sampled_plain hS) (sampled_respects hS) (by decide) hr (serves_of h1) h2
    (sampled_first hS) (sampled_key hS) (sampled_order fork_le hS) hcur (by decide +kernel) rfl
  have := shown_amount (.inr rfl) this (token_layout _ (by decide))
  rw [h3] at this
  simp at this

/-- Slot 3 is confirmed, `alice` changes at slot 4, `bob` at slot 5. -/
def notYet : List Event := afterLoading [confirms 3 2, aliceAt 4, bobAt 5]

theorem notYet_sampled : Sampled before notYet :=
  sampled_loaded (sampled_cons (.inr (.inr ⟨3, by decide, by decide, rfl⟩)) (sampled_cons (.inr (.inl ⟨4, by decide, .inl rfl⟩))
    (sampled_cons (.inr (.inl ⟨5, by decide, .inr rfl⟩)) sampled_nil)))

/-- The hypotheses of `C110_partial` hold if there are no forks, and the 99 is shown. -/
example : ∃ w, oneRun notYet = .ok w ∧ AnswersToken Toy.codecs bytesExternals processedConfig Toy.alice 4 (aliceInfo w processedConfig)
    (some (Spl.tokenId, otherBytes)) := by
  obtain ⟨w, hr, hw⟩ := of_check (r := oneRun notYet) (p := fun w => isDone w.loader && w.listening) (by decide +kernel)
  simp only [Bool.and_eq_true] at hw
  obtain ⟨h1, h2⟩ := hw
  have hS := notYet_sampled
  have hF : lastFinal (streamed notYet) = 0 := lastFinal_none (sampled_final hS)
  have hC : confirmedOf (streamed notYet) = 3 := by decide +kernel
  have hH : highestSlot (streamed notYet) = 5 := by decide +kernel
  have hsub : ∀ k, submittedAt (streamed notYet) Toy.alice k ≠ [] → k = 4 := by
    intro k hk
    by_contra hne
    apply hk
    have e : streamed notYet = [.slot plainOrders ⟨3, 2, 0⟩ .confirmed, .update (otherAcct 4 1) .processed,
      .update (tokenAcct Toy.bob 5 1) .processed] := rfl
    rw [e]
    have hb : (tokenAcct Toy.bob 5 1).pubkey ≠ Toy.alice := by decide +kernel
    have h5 : (otherAcct 4 1).slot = 4 := rfl
    simp [submittedAt, h5, hb, Ne.symm hne]
  have hnew : NewestTrue (streamed notYet) before Toy.alice (highestSlot (streamed notYet)) (otherAcct 4 1) 4 := by
    rw [hH]
    exact .up (by decide +kernel) (.here ⟨[], [], by decide +kernel, by simp, by simp⟩)
  refine ⟨w, hr, C110_partial Toy.codecs bytesExternals plainLz4 oneDecode
    (archiveOf oneFile) oneAccounts notYet w before Toy.alice 4 (some (Spl.tokenId, otherBytes)) plainOrders plainSnapshotOrders
    Toy.alice.bytes processedConfig one_ok one_consistent (sampled_plain hS) (sampled_respects hS) (by decide) hr (serves_of h1) h2
    (fun _ => sampled_first hS) (sampled_key hS) (sampled_order before_le hS)
    (CurrentAt.open (a := otherAcct 4 1) hnew (by rw [hF]; decide) (by simp [otherAcct, Toy.acct]) rfl) (by decide +kernel) rfl ?_ ?_ ?_⟩
  · intro k _ _ hk
    obtain rfl := hsub k hk
    rw [hH]; exact .up .here
  · rw [hH, hC]; exact .up (.up .here)
  · intro a k hk
    have e1 := hsub k (newest_submitted hk)
    have e2 := ancestor_le before_le (ancestor_of_newest hk)
    rw [hC] at e2
    omega

end LAM.Props
