import Verif.Lemmas.ProgramAlive
import Verif.Props.Composed
import Verif.Props.Rpc
import Verif.Props.Simulator
import Verif.Props.TokenSnapshot
/-!
# C106-C108: the simulator program
-/
namespace LAM.Props
open Spec Token Sim ProcStore
open TokenStore (TOp)

/-! ## C106: what is answered -/

/-- The answer to `getAccountInfo`: the token account written as these bytes with this owner, as of this slot, or none. -/
def AnswersToken {U : Type} (X : Codecs) (E : Rpc.Externals U) (config : Option Rpc.AccountConfig) (pk : Pubkey) (slot : Nat)
    (r : Run (Except Rpc.Error (Rpc.Response (Option U)))) : Option (Pubkey × Bytes) → Prop
  | none => r = .ok (.ok ⟨0, none⟩)
  | some (owner, bs) => ∃ u a d sa sa', r = .ok (.ok ⟨slot, some u⟩) ∧ Shows X E config a u ∧ a.pubkey = pk ∧
      a.account.owner = owner ∧ a.account.data.data X = .ok d ∧ AccountLayout bs sa ∧ AccountLayout d sa' ∧ SameToken sa sa'

/-- **C106**, as claimed: once the archive is loaded, and while the stream is followed and in order, `getAccountInfo` at the
finalized commitment shows a token account as of the last finalized slot: in its newest state on the finalized chain, or as
it is in the archive if the stream has none. -/
def C106_statement : Prop :=
  ∀ (U : Type) (X : Codecs) (E : Rpc.Externals U) (L : Lz4Block) (decode : Bytes → Option Manifest) (items : List Item)
    (ws : List (Nat × Written)) (evs : List Event) (w : Main) (par : Nat → Nat) (pk : Pubkey) (d : Option (Pubkey × Bytes))
    (σ : Orders) (o : SnapshotOrders) (key : Bytes) (config : Option Rpc.AccountConfig),
    WellFormedArchive decode items ws → Consistent (tokenOwned (ws.map (·.2))) → Plain evs → StreamRespects X ws evs →
    ws.length + evs.length < 2 ^ 31 → (Main.start true items).run X decode evs = .ok w → w.serves → w.listening = true →
    TokenKey ws evs pk → InOrder X par evs pk → Current ws evs par pk d →
    E.parse key = some pk → commitmentFor config = .finalized →
    AnswersToken X E config pk (lastFinal (streamed evs)) (Rpc.getAccountInfo X E (storageOf X L σ o w.store) key config) d

theorem info_none {U : Type} {X : Codecs} {E : Rpc.Externals U} {L : Lz4Block} {σ : Orders} {o : SnapshotOrders} {s : TokenStore}
    {key : Bytes} {pk : Pubkey} {config : Option Rpc.AccountConfig} (hk : E.parse key = some pk)
    (h : s.getAccount pk (commitmentFor config) = .ok none) :
    Rpc.getAccountInfo X E (storageOf X L σ o s) key config = .ok (.ok ⟨0, none⟩) := by
  simp only [Rpc.getAccountInfo, hk, commitmentFor_eq, storageOf, h, Run.ok_bind, Run.pure_eq]

theorem info_some {U : Type} {X : Codecs} {E : Rpc.Externals U} {L : Lz4Block} {σ : Orders} {o : SnapshotOrders} {s : TokenStore}
    {key : Bytes} {pk : Pubkey} {config : Option Rpc.AccountConfig} {r : AccountData} {d : Bytes} (hk : E.parse key = some pk)
    (h : s.getAccount pk (commitmentFor config) = .ok (some r)) (hd : r.account.data.data X = .ok d) :
    ∃ u, Rpc.getAccountInfo X E (storageOf X L σ o s) key config = .ok (.ok ⟨r.slot, some u⟩) ∧ Shows X E config r u := by
  have hu : ∃ u, Rpc.toUi X E r config = .ok u := by
    simp only [Rpc.toUi, Account.toSolana, hd, Run.ok_bind, Run.pure_eq]
    exact ⟨_, rfl⟩
  obtain ⟨u, hu⟩ := hu
  refine ⟨u, ?_, toUi_shows hu⟩
  simp only [Rpc.getAccountInfo, hk, commitmentFor_eq, storageOf, h, Run.ok_bind, Run.pure_eq, hu]

theorem archived_length (ws : List (Nat × Written)) : (archived ws).length ≤ ws.length := by
  simp only [archived, List.length_map]
  exact Nat.le_trans (List.length_filter_le _ _) (by simp)

/-- When the archive is loaded, the store has got it and the stream, in some order. -/
theorem served_feed {X : Codecs} {decode : Bytes → Option Manifest} {items : List Item} {ws : List (Nat × Written)}
    {evs : List Event} {w : Main} (ha : WellFormedArchive decode items ws) (hp : Plain evs)
    (hr : (Main.start true items).run X decode evs = .ok w) (hs : w.serves) (hl : w.listening = true) :
    ∃ ops, Interleaved (archived ws) (streamed evs) ops ∧ TokenStore.run X ops .empty = .ok w.store ∧
      (LoadsFirst X decode false evs (Main.start true items) → ∀ pk, LoadedFirst pk ops) := by
  obtain ⟨before, rest, n, ops, h1, h2, h3, h4, h5⟩ := main_feed evs ha hp hr hl
  have hrest := (not_done_of_left h1).1 hs
  subst hrest
  have hall : before = tokenOwned (ws.map (·.2)) := by rw [h2]; simp [tokenOwned]
  subst hall
  exact ⟨ops, h3, h4, fun h => (h5 h).1⟩

/-- **C106**, the part that holds: if the account is in the archive and in the stream, no slot may be finalized before the
archive is loaded. What is missing: otherwise the loader may overwrite a finalized state with the older one of the archive. -/
theorem C106_partial {U : Type} (X : Codecs) (E : Rpc.Externals U) (L : Lz4Block) (decode : Bytes → Option Manifest)
    (items : List Item) (ws : List (Nat × Written)) (evs : List Event) (w : Main) (par : Nat → Nat) (pk : Pubkey)
    (d : Option (Pubkey × Bytes)) (σ : Orders) (o : SnapshotOrders) (key : Bytes) (config : Option Rpc.AccountConfig)
    (ha : WellFormedArchive decode items ws) (hc : Consistent (tokenOwned (ws.map (·.2)))) (hp : Plain evs)
    (hsr : StreamRespects X ws evs) (hn : ws.length + evs.length < 2 ^ 31)
    (hr : (Main.start true items).run X decode evs = .ok w) (hs : w.serves) (hl : w.listening = true)
    (hk : TokenKey ws evs pk) (hio : InOrder X par evs pk) (hd : Current ws evs par pk d) (hkey : E.parse key = some pk)
    (hcom : commitmentFor config = .finalized)
    (hlf : (∃ a k, NewestTrue (streamed evs) par pk (lastFinal (streamed evs)) a k) →
      (∃ w ∈ tokenOwned (ws.map (·.2)), w.pubkey = pk) → LoadsFirst X decode false evs (Main.start true items)) :
    AnswersToken X E config pk (lastFinal (streamed evs)) (Rpc.getAccountInfo X E (storageOf X L σ o w.store) key config) d := by
  obtain ⟨ops, h1, h2, h3⟩ := served_feed ha hp hr hs hl
  have hlen : ops.length < 2 ^ 31 := by
    rw [interleaved_length h1]
    have e1 := archived_length ws
    have e2 : (streamed evs).length ≤ evs.length := List.length_filterMap_le _ _
    omega
  obtain ⟨g1, g2⟩ := feed_read hc hsr hk hio h1 hlen h2 (fun ⟨a, k, h⟩ h' => h3 (hlf ⟨a, k, h⟩ h') pk) hd
  cases d with
  | none => exact info_none hkey (by rw [hcom]; exact g1 rfl)
  | some p =>
    obtain ⟨owner, bs⟩ := p
    obtain ⟨r, bs', sa, sa', e1, e2, e3, e4, e5, e6, e7, e8⟩ := g2 owner bs rfl
    obtain ⟨u, e9, e10⟩ := info_some (X := X) (E := E) (L := L) (σ := σ) (o := o) hkey (by rw [hcom]; exact e1) e5.1
    exact ⟨u, r, bs', sa, sa', by rw [e9, e3], e10, e2, e4, e5.1, e6, e7, e8⟩

/-! ## The sample: one file with a mint and a token account of `alice` -/

def oneFile : List (Nat × Nat × List Written) := [(3, 0, [wMint, wToken Toy.alice 12])]

def oneAccounts : List (Nat × Written) := [(3, wMint), (3, wToken Toy.alice 12)]

def oneDecode : Bytes → Option Manifest := fun _ => some (manifestOf oneFile)

theorem one_ok : WellFormedArchive oneDecode (archiveOf oneFile) oneAccounts := by
  refine archiveOf_ok oneFile (by decide) ?_
  intro f hf
  simp only [oneFile, List.mem_cons, List.not_mem_nil, or_false] at hf
  subst hf
  refine ⟨by decide, by decide, by decide +kernel, ?_⟩
  intro w hw
  simp only [List.mem_cons, List.not_mem_nil, or_false] at hw
  rcases hw with rfl | rfl <;> exact fits_of (by decide +kernel)

theorem one_owned : tokenOwned (oneAccounts.map (·.2)) = [wMint, wToken Toy.alice 12] := by decide +kernel

theorem one_consistent : Consistent (tokenOwned (oneAccounts.map (·.2))) := by
  rw [one_owned]
  refine consistent_of ?_ (by simp)
  intro w hw
  simp only [List.mem_cons, List.not_mem_nil, or_false] at hw
  rcases hw with rfl | rfl
  · exact .inl rfl
  · exact .inr ⟨_, _, by decide, by decide +kernel, rfl⟩

/-- The message that reports a state. -/
def messageOf (a : AccountData) (bs : Bytes) : Event :=
  .message plainOrders (.account a.pubkey a.account.lamports bs .none a.account.owner a.account.executable a.account.rentEpoch a.slot a.wv)

def otherBytes : Bytes := ({ splAccount with amount := 99 }).pack

/-- `alice` has 99 at slot 4. -/
def aliceChanges : Event := messageOf (otherAcct 4 1) otherBytes

def slotMsg (slot : Nat) (level : CommitmentLevel) : Event := .message plainOrders (.slot slot (slot - 1) level)

/-- What the stream of the sample reports. -/
def oneStream : List TOp :=
  [.update (otherAcct 4 1) .processed, .slot plainOrders ⟨4, 3, 0⟩ .confirmed, .slot plainOrders ⟨5, 4, 0⟩ .confirmed,
    .slot plainOrders ⟨5, 4, 0⟩ .finalized]

/-- The archive is loaded, then `alice` changes and slot 5 is finalized. -/
def loadedBefore : List Event :=
  [aliceChanges, .load, .load, .load, .load, .load, slotMsg 4 .confirmed, slotMsg 5 .confirmed, slotMsg 5 .finalized]

/-- The mint is loaded, then `alice` changes and slot 5 is finalized, then `alice` is loaded. -/
def loadedAfter : List Event :=
  [.load, .load, .load, aliceChanges, slotMsg 4 .confirmed, slotMsg 5 .confirmed, slotMsg 5 .finalized, .load, .load]

theorem streamed_before : streamed loadedBefore = oneStream := rfl
theorem streamed_after : streamed loadedAfter = oneStream := rfl

theorem plain_of {evs : List Event} (h : ∀ e ∈ evs, e = aliceChanges ∨ e = .load ∨ ∃ slot level, e = slotMsg slot level) : Plain evs := by
  intro σ pubkey lamports data compression owner executable rentEpoch slot writeVersion hm
  rcases h _ hm with h | h | ⟨s, l, h⟩
  · simp only [aliceChanges, messageOf, Event.message.injEq, Message.account.injEq] at h
    exact h.2.2.2.2.1
  · simp at h
  · simp [slotMsg] at h

theorem plain_before : Plain loadedBefore := plain_of (by
  intro e he
  simp only [loadedBefore, List.mem_cons, List.not_mem_nil, or_false] at he
  rcases he with rfl | rfl | rfl | rfl | rfl | rfl | rfl | rfl | rfl <;>
    first | exact .inl rfl | exact .inr (.inl rfl) | exact .inr (.inr ⟨_, _, rfl⟩))

theorem plain_after : Plain loadedAfter := plain_of (by
  intro e he
  simp only [loadedAfter, List.mem_cons, List.not_mem_nil, or_false] at he
  rcases he with rfl | rfl | rfl | rfl | rfl | rfl | rfl | rfl | rfl <;>
    first | exact .inl rfl | exact .inr (.inl rfl) | exact .inr (.inr ⟨_, _, rfl⟩))

theorem other_layout : AccountLayout otherBytes { splAccount with amount := 99 } :=
  C45_pack_is_layout.1 _ (by constructor <;> simp [splAccount])

theorem one_respects {evs : List Event} (h : ∀ a c, TOp.update a c ∈ streamed evs → a = otherAcct 4 1) :
    StreamRespects Toy.codecs oneAccounts evs := by
  intro a c hm
  obtain rfl := h a c hm
  refine ⟨⟨otherBytes, ⟨rfl, rfl⟩, ?_⟩, ?_⟩
  · intro sa hl
    obtain rfl := accountLayout_unique hl other_layout
    exact ⟨⟨wMint, by rw [one_owned]; simp, rfl, _, mint_layout⟩, trivial⟩
  · intro _
    exact ⟨by simp [otherAcct, Toy.acct], .inl rfl⟩

theorem update_stream {a : AccountData} {c : Commitment} (h : TOp.update a c ∈ oneStream) : a = otherAcct 4 1 := by
  simp only [oneStream, List.mem_cons, List.not_mem_nil, or_false, reduceCtorEq, TOp.update.injEq] at h
  exact h.1

theorem one_key {evs : List Event} (h : streamed evs = oneStream) : TokenKey oneAccounts evs Toy.alice := by
  refine ⟨?_, ?_, ?_⟩
  · intro w hw hp
    rw [one_owned] at hw
    simp only [List.mem_cons, List.not_mem_nil, or_false] at hw
    rcases hw with rfl | rfl
    · exact absurd hp (by decide +kernel)
    · exact ⟨_, token_layout _ (by decide)⟩
  · intro a c hm _
    rw [h] at hm
    obtain rfl := update_stream hm
    exact ⟨.inl rfl, .inr ⟨otherBytes, _, rfl, other_layout⟩⟩
  · intro a c hm hp
    rw [h] at hm
    obtain rfl := update_stream hm
    exact absurd rfl hp

theorem one_order {evs : List Event} (h : streamed evs = oneStream) : InOrder Toy.codecs before evs Toy.alice := by
  refine ⟨before_le, ?_, ?_, ?_⟩ <;> rw [h]
  · intro σ info c hm
    simp only [oneStream, List.mem_cons, List.not_mem_nil, or_false, reduceCtorEq, false_or, TOp.slot.injEq] at hm
    rcases hm with ⟨-, rfl, -⟩ | ⟨-, rfl, -⟩ | ⟨-, rfl, -⟩ <;> simp [before]
  · intro pre a c post e
    refine every_call (ops := oneStream) (P := fun pre o => ∀ a c, o = .update a c → c ≠ .finalized → lastFinal pre < a.slot) ?_
      pre _ post e a c rfl
    intro n hn a c
    match n, hn with
    | 0, _ => intro h; cases h; intro _; decide +kernel
    | 1, _ | 2, _ | 3, _ => intro h; cases h
  · intro pre σ info post e
    refine every_call (ops := oneStream) (P := fun pre o => ∀ σ info, o = .slot σ info .finalized → lastFinal pre < info.slot →
      (0 < lastFinal pre → Ancestor before info.slot (lastFinal pre)) ∧
      ∀ i k, Ancestor before info.slot i → Ancestor before i k → i ≠ k → lastFinal pre < k → submittedAt pre Toy.alice k ≠ [] →
        (i = info.slot → Known Toy.codecs pre i) ∧ (i ≠ info.slot → LinkNoted Toy.codecs pre i)) ?_ pre _ post e σ info rfl
    intro n hn σ info
    match n, hn with
    | 0, _ | 1, _ | 2, _ => intro h; cases h
    | 3, _ =>
      intro h; cases h
      intro _
      have hF : lastFinal (oneStream.take 3) = 0 := by decide +kernel
      refine ⟨fun h => by rw [hF] at h; omega, ?_⟩
      intro i k h1 h2 h3 h4 h5
      have e1 := ancestor_before h1
      have e2 := ancestor_before h2
      simp only at e1
      rw [hF] at h4
      have hk : k = 4 := by
        have hk : k = 1 ∨ k = 2 ∨ k = 3 ∨ k = 4 := by omega
        rcases hk with rfl | rfl | rfl | rfl
        · exact absurd (by decide +kernel) h5
        · exact absurd (by decide +kernel) h5
        · exact absurd (by decide +kernel) h5
        · rfl
      subst hk
      have hi : i = 5 := by omega
      subst hi
      exact ⟨fun _ => .inl ⟨plainOrders, ⟨5, 4, 0⟩, .confirmed, by simp [oneStream], rfl⟩, fun h => absurd rfl h⟩

theorem one_newest : NewestTrue oneStream before Toy.alice (lastFinal oneStream) (otherAcct 4 1) 4 := by
  have : lastFinal oneStream = 5 := by decide +kernel
  rw [this]
  exact .up (by decide +kernel) (.here ⟨[], [], by decide +kernel, by simp, by simp⟩)

theorem one_current {evs : List Event} (h : streamed evs = oneStream) :
    Current oneAccounts evs before Toy.alice (some (Spl.tokenId, otherBytes)) := by
  have e := Current.open (ws := oneAccounts) (evs := evs) (par := before) (pk := Toy.alice) (a := otherAcct 4 1) (k := 4) (bs := otherBytes)
    (by rw [h]; exact one_newest) (by simp [otherAcct, Toy.acct]) rfl
  exact e

def oneRun (evs : List Event) : Run Main := (Main.start true (archiveOf oneFile)).run Toy.codecs oneDecode evs

def isDone : Loader → Bool
  | .done => true
  | _ => false

theorem serves_of {w : Main} (h : isDone w.loader = true) : w.serves := by
  unfold Main.serves
  cases hl : w.loader <;> simp [hl, isDone] at h
  rfl

/-- In `loadedBefore` slots are notified after loading. -/
theorem before_first (all : Bool) : LoadsFirst Toy.codecs oneDecode all loadedBefore (Main.start true (archiveOf oneFile)) := by
  intro pre σ slot parent level post e _
  have hserve : ∀ n, 6 ≤ n → n ≤ 8 → ∃ w', (Main.start true (archiveOf oneFile)).run Toy.codecs oneDecode (loadedBefore.take n) = .ok w' ∧
      w'.serves := by
    intro n h1 h2
    have hn : n = 6 ∨ n = 7 ∨ n = 8 := by omega
    have hc : returned (oneRun (loadedBefore.take n)) (fun w => isDone w.loader) = true := by
      rcases hn with rfl | rfl | rfl <;> decide +kernel
    obtain ⟨w, hr, hw⟩ := of_check hc
    exact ⟨w, hr, serves_of hw⟩
  have hlen : pre.length < 9 := by
    have : loadedBefore.length = 9 := rfl
    rw [e] at this; simp at this; omega
  have hget : loadedBefore[pre.length]? = some (.message σ (.slot slot parent level)) := by rw [e]; simp
  have hpre : pre = loadedBefore.take pre.length := by rw [e]; simp
  rw [hpre]
  refine hserve _ ?_ (by omega)
  by_contra hlt
  have hn : pre.length = 0 ∨ pre.length = 1 ∨ pre.length = 2 ∨ pre.length = 3 ∨ pre.length = 4 ∨ pre.length = 5 := by omega
  rcases hn with h | h | h | h | h | h <;> (rw [h] at hget; simp [loadedBefore, aliceChanges, messageOf] at hget)

/-- The data is shown as it is. -/
def bytesExternals : Rpc.Externals Bytes where
  parse b := if h : b.length = 32 then some ⟨b, h⟩ else none
  text p := p.bytes
  encode _ a _ _ := a.data
  base64 b := b

/-- The amount `getAccountInfo` shows for `alice`, if any. -/
def amountShown (w : Main) : Option Nat :=
  match Rpc.getAccountInfo Toy.codecs bytesExternals (storageOf Toy.codecs plainLz4 plainOrders plainSnapshotOrders w.store)
      Toy.alice.bytes none with
  | .ok (.ok ⟨_, some bs⟩) => some (leNat (field bs 64 8))
  | _ => none

/-- C106 is false: slot 5 was finalized with 99 for `alice`, then the loader stores the 12 of the archive. -/
theorem C106_refuted : ¬ C106_statement := by
  intro h
  obtain ⟨w, hr, hw⟩ := of_check (r := oneRun loadedAfter)
    (p := fun w => isDone w.loader && w.listening && decide (amountShown w = some 12)) (by decide +kernel)
  simp only [Bool.and_eq_true, decide_eq_true_eq] at hw
  obtain ⟨⟨h1, h2⟩, h3⟩ := hw
  have hs : w.serves := serves_of h1
  obtain ⟨u, a, d, sa, sa', e1, ⟨d', e2, _, _, -, -, e3⟩, -, -, e4, e5, e6, e7⟩ := h Bytes Toy.codecs bytesExternals plainLz4 oneDecode
    (archiveOf oneFile) oneAccounts loadedAfter w before Toy.alice (some (Spl.tokenId, otherBytes)) plainOrders plainSnapshotOrders
    Toy.alice.bytes none one_ok one_consistent plain_after
    (one_respects (fun a c hm => by rw [streamed_after] at hm; exact update_stream hm)) (by decide) hr hs h2 (one_key streamed_after)
    (one_order streamed_after) (one_current streamed_after) (by decide +kernel) rfl
  rw [e4] at e2; cases e2
  have hu : u = d := e3
  subst hu
  simp only [amountShown, e1, Option.some.injEq, e6.amount] at h3
  have := e7.amount
  rw [accountLayout_unique e5 other_layout] at this
  simp [h3] at this

/-- In the sample the hypotheses of `C106_partial` hold, and the 99 is shown. -/
example : ∃ w, oneRun loadedBefore = .ok w ∧ w.serves ∧ w.listening = true ∧
    AnswersToken Toy.codecs bytesExternals none Toy.alice 5
      (Rpc.getAccountInfo Toy.codecs bytesExternals (storageOf Toy.codecs plainLz4 plainOrders plainSnapshotOrders w.store)
        Toy.alice.bytes none) (some (Spl.tokenId, otherBytes)) := by
  obtain ⟨w, hr, hw⟩ := of_check (r := oneRun loadedBefore) (p := fun w => isDone w.loader && w.listening) (by decide +kernel)
  simp only [Bool.and_eq_true] at hw
  obtain ⟨h1, h2⟩ := hw
  have hs : w.serves := serves_of h1
  refine ⟨w, hr, hs, h2, ?_⟩
  refine C106_partial Toy.codecs bytesExternals plainLz4 oneDecode
    (archiveOf oneFile) oneAccounts loadedBefore w before Toy.alice (some (Spl.tokenId, otherBytes)) plainOrders plainSnapshotOrders
    Toy.alice.bytes none one_ok one_consistent plain_before
    (one_respects (fun a c hm => by rw [streamed_before] at hm; exact update_stream hm)) (by decide) hr hs h2 (one_key streamed_before)
    (one_order streamed_before) (one_current streamed_before) (by decide +kernel) rfl (fun _ _ => ?_)
  exact before_first false

/-! ## C107: the stream is followed -/

/-- **C107**, as claimed: as long as the validator goes on sending plain messages about token accounts of the mints in the
archive, the program goes on taking them. -/
def C107_statement : Prop :=
  ∀ (X : Codecs) (decode : Bytes → Option Manifest) (items : List Item) (ws : List (Nat × Written)) (evs : List Event) (w : Main),
    WellFormedArchive decode items ws → Consistent (tokenOwned (ws.map (·.2))) → Plain evs → StreamRespects X ws evs →
    Event.hangUp ∉ evs → evs.length < 2 ^ 31 → (Main.start true items).run X decode evs = .ok w → w.listening = true

/-- `alice` changes and slot 4 is confirmed before the mint is loaded. -/
def tooEarly : List Event := [aliceChanges, slotMsg 4 .confirmed, .load, .load, .load, .load, .load, slotMsg 4 .finalized]

theorem early_respects : StreamRespects Toy.codecs oneAccounts tooEarly :=
  one_respects (fun a c hm => by
    have e : streamed tooEarly = [.update (otherAcct 4 1) .processed, .slot plainOrders ⟨4, 3, 0⟩ .confirmed,
      .slot plainOrders ⟨4, 3, 0⟩ .finalized] := rfl
    rw [e] at hm
    simp only [List.mem_cons, List.not_mem_nil, or_false, reduceCtorEq, TOp.update.injEq] at hm
    exact hm.1)

/-- C107 is false: the notification of slot 4 panics because the mint is not there yet, and the task is gone.  The program
serves the archive as if nothing had happened: `alice` has 12, though slot 4 is finalized with 99. -/
theorem C107_refuted : ¬ C107_statement := by
  intro h
  obtain ⟨w, hr, hw⟩ := of_check (r := oneRun tooEarly)
    (p := fun w => isDone w.loader && !w.listening && decide (amountShown w = some 12)) (by decide +kernel)
  simp only [Bool.and_eq_true] at hw
  have := h Toy.codecs oneDecode (archiveOf oneFile) oneAccounts tooEarly w one_ok one_consistent
    (plain_of (by
      intro e he
      simp only [tooEarly, List.mem_cons, List.not_mem_nil, or_false] at he
      rcases he with rfl | rfl | rfl | rfl | rfl | rfl | rfl | rfl <;>
        first | exact .inl rfl | exact .inr (.inl rfl) | exact .inr (.inr ⟨_, _, rfl⟩)))
    early_respects (by simp [tooEarly, aliceChanges, messageOf, slotMsg]) (by decide) hr
  simp [this] at hw

/-- **C107**, the part that holds: if no slot is confirmed or finalized before the archive is loaded, the program runs and goes
on taking messages. What is missing: such a notification may need a mint that is not loaded yet, and then ends the task. -/
theorem C107_partial (X : Codecs) (decode : Bytes → Option Manifest) (items : List Item) (ws : List (Nat × Written))
    (evs : List Event) (ha : WellFormedArchive decode items ws) (hc : Consistent (tokenOwned (ws.map (·.2)))) (hp : Plain evs)
    (hs : StreamRespects X ws evs) (hh : Event.hangUp ∉ evs) (hn : evs.length < 2 ^ 31)
    (hf : LoadsFirst X decode true evs (Main.start true items)) :
    ∃ w, (Main.start true items).run X decode evs = .ok w ∧ w.listening = true := by
  obtain ⟨w, _, _, _, _, _, h1, h2, -⟩ := main_alive evs ha hc hp hs hh hn hf
  exact ⟨w, h1, h2⟩

example : ∃ w, oneRun loadedBefore = .ok w ∧ w.listening = true :=
  C107_partial Toy.codecs oneDecode _ _ loadedBefore one_ok one_consistent plain_before
    (one_respects (fun a c hm => by rw [streamed_before] at hm; exact update_stream hm))
    (by simp [loadedBefore, aliceChanges, messageOf, slotMsg]) (by decide) (before_first true)

/-- **C107**. When the task is gone and the archive is loaded, nothing changes any more: every later answer is made from the
same store, whatever the validator sends. -/
theorem C107_frozen (X : Codecs) (decode : Bytes → Option Manifest) (w w' : Main) (evs : List Event) (hs : w.serves)
    (hl : w.listening = false) (hr : w.run X decode evs = .ok w') : w' = w := by
  induction evs generalizing w with
  | nil => simp [Main.run] at hr; exact hr.symm
  | cons e evs ih =>
    simp only [Main.run, Run.bind_eq_ok] at hr
    obtain ⟨w1, h1, hr⟩ := hr
    obtain rfl := (serves_step h1 hs).2 hl
    exact ih w1 hs hl hr

example : ∃ w, oneRun tooEarly = .ok w ∧ w.serves ∧ w.listening = false ∧
    ∀ w', w.run Toy.codecs oneDecode [messageOf (otherAcct 6 1) otherBytes, slotMsg 6 .confirmed, slotMsg 6 .finalized] = .ok w' → w' = w := by
  obtain ⟨w, hr, hw⟩ := of_check (r := oneRun tooEarly) (p := fun w => isDone w.loader && !w.listening) (by decide +kernel)
  simp only [Bool.and_eq_true, Bool.not_eq_true'] at hw
  exact ⟨w, hr, serves_of hw.1, hw.2, fun w' h => C107_frozen _ _ w w' _ (serves_of hw.1) hw.2 h⟩

/-- **C107**. An account message whose data decodes is always taken, wherever the loader is. -/
theorem C107_updates_return (X : Codecs) (decode : Bytes → Option Manifest) (items : List Item) (ws : List (Nat × Written))
    (evs : List Event) (w : Main) (ha : WellFormedArchive decode items ws) (hn : evs.length < 2 ^ 31 - 1)
    (hr : (Main.start true items).run X decode evs = .ok w) (a : AccountData) (bs : Bytes) (hd : HonestData X a.account.data bs)
    (c : Commitment) : ∃ s, streamCall X w.store (.update a c) = .ok (s, true) := by
  obtain ⟨w', _, _, m, slots, orig, h1, -, h3, h4, -⟩ := main_total (X := X) evs true ha (by omega)
  rw [hr] at h1; cases h1
  obtain ⟨r, e⟩ := update_total h3 (by omega) hd c
  exact ⟨r.2, by simp only [streamCall, TokenStore.step, e]; rfl⟩

example (w : Main) (h : oneRun tooEarly = .ok w) : ∃ s, streamCall Toy.codecs w.store (.update (otherAcct 6 1) .processed) = .ok (s, true) :=
  C107_updates_return Toy.codecs oneDecode _ _ tooEarly w one_ok (by decide) h _ otherBytes ⟨rfl, rfl⟩ _

/-! ## C108: loading and serving -/

theorem left_zero {decode : Bytes → Option Manifest} {l : Loader} {rest : List Written} {n : Nat} (h : Left decode l rest n)
    (hn : n = 0 := by rfl) : l = .done := by
  cases h with
  | opening => omega
  | reading => omega
  | done => rfl

theorem of_panic {α : Type} {r : Run α} (h : (match r with | .panic => true | _ => false) = true) : r = .panic := by
  cases r <;> simp at h ⊢

/-- **C108**. With a well-formed archive the program runs whatever the validator sends, and serves after at most as many turns of
the loader as the archive has entries and accounts, and two more. -/
theorem C108_serves (X : Codecs) (decode : Bytes → Option Manifest) (items : List Item) (ws : List (Nat × Written)) (url : Bool)
    (evs : List Event) (ha : WellFormedArchive decode items ws) (hn : evs.length < 2 ^ 31) :
    ∃ w, (Main.start url items).run X decode evs = .ok w ∧
      (items.length + ws.length + 2 ≤ (evs.filter (fun e => match e with | .load => true | _ => false)).length → w.serves) := by
  obtain ⟨w, rest, n, m, slots, orig, h1, h2, -, -, h5⟩ := main_total (X := X) evs url ha hn
  refine ⟨w, h1, fun h => ?_⟩
  have hc : (evs.filter (fun e => match e with | .load => true | _ => false)).length = evs.countP isLoad := by
    rw [List.countP_eq_length_filter]; rfl
  rcases h5 with h5 | h5
  · exact h5
  · have : n = 0 := by omega
    subst this
    exact left_zero h2

/-- Ten turns of the loader among messages, one of which ends the stream task. -/
example : ∃ w, oneRun ([aliceChanges, slotMsg 4 .confirmed] ++ List.replicate 10 .load) = .ok w ∧ w.serves := by
  obtain ⟨w, h1, h2⟩ := C108_serves Toy.codecs oneDecode _ _ true ([aliceChanges, slotMsg 4 .confirmed] ++ List.replicate 10 .load) one_ok
    (by decide)
  exact ⟨w, h1, h2 (by decide)⟩

/-- **C108**. Archives without a manifest before the account files are never served. -/
theorem C108_no_manifest (X : Codecs) (decode : Bytes → Option Manifest) (items : List Item) (url : Bool) (evs : List Event) (w : Main)
    (h : ∀ pre path content post, items = pre ++ .entry path content :: post → ManifestPath path →
      ∃ p c, .entry p c ∈ pre ∧ AccountsPath p) (hr : (Main.start url items).run X decode evs = .ok w) : ¬ w.serves := by
  intro hs
  have hd : Doomed decode (Main.start url items).loader := by
    intro m rest hm
    obtain ⟨pre, path, content, e, h1, h2, -⟩ := (C78_manifest_iff decode items m rest).1 hm
    obtain ⟨p, c, hp, ha⟩ := h pre path (some content) rest e h2
    obtain ⟨p', c', he, -, hn⟩ := h1 _ hp
    cases he
    exact absurd ha hn
  have := doomed_run evs hd hr
  rw [hs] at this
  exact this

/-- **C108**. Archives with an unreadable entry or an undeclared account file behind the manifest are never served. -/
theorem C108_bad_entry (X : Codecs) (decode : Bytes → Option Manifest) (pre : List Item) (path : Path) (content : Bytes)
    (m : Manifest) (post : List Item) (url : Bool) (evs : List Event) (w : Main)
    (h1 : ∀ i ∈ pre, ∃ p c, i = .entry p c ∧ ¬ ManifestPath p ∧ ¬ AccountsPath p) (h2 : ManifestPath path) (h3 : decode content = some m)
    (hb : ∃ i ∈ post, BadEntry m i) (hr : (Main.start url (pre ++ .entry path (some content) :: post)).run X decode evs = .ok w) :
    ¬ w.serves := by
  intro hs
  have hd : Doomed decode (Main.start url (pre ++ .entry path (some content) :: post)).loader := by
    intro m' rest hm
    rw [(C78_manifest_iff decode _ m post).2 ⟨pre, path, content, rfl, h1, h2, h3⟩] at hm
    cases hm
    exact bad_entry_error hb
  have := doomed_run evs hd hr
  rw [hs] at this
  exact this

/-- The mint and `alice` are loaded, then the archive breaks off: the program has ended. -/
example : (Main.start true (archiveOf oneFile ++ [.broken])).run Toy.codecs oneDecode [.load, .load, .load, .load] ≠ .panic ∧
    (Main.start true (archiveOf oneFile ++ [.broken])).run Toy.codecs oneDecode [.load, .load, .load, .load, .load] = .panic := by
  constructor
  · obtain ⟨w, h, -⟩ := of_check (r := (Main.start true (archiveOf oneFile ++ [.broken])).run Toy.codecs oneDecode [.load, .load, .load, .load])
      (p := fun _ => true) (by decide +kernel)
    rw [h]; simp
  · exact of_panic (by decide +kernel)

/-- **C108**. Without a stream the store is what loading the archive alone gives. -/
theorem C108_alone (X : Codecs) (decode : Bytes → Option Manifest) (items : List Item) (evs : List Event) (w : Main)
    (hr : (Main.start false items).run X decode evs = .ok w) (hs : w.serves) : loadArchive X decode items .empty = .ok w.store := by
  have h := finish_run evs rfl hr
  rw [hs] at h
  exact h

example : ∃ w, (Main.start false (archiveOf oneFile)).run Toy.codecs oneDecode (loadedAfter ++ [.hangUp]) = .ok w ∧ w.serves ∧
    loadArchive Toy.codecs oneDecode (archiveOf oneFile) .empty = .ok w.store := by
  obtain ⟨w, hr, hw⟩ := of_check (r := (Main.start false (archiveOf oneFile)).run Toy.codecs oneDecode (loadedAfter ++ [.hangUp]))
    (p := fun w => isDone w.loader) (by decide +kernel)
  exact ⟨w, hr, serves_of hw, C108_alone _ _ _ _ w hr (serves_of hw)⟩

/-- **C108**. With a stream of plain messages that is still followed, the store is what it gets from the archive and the stream in
some order, each in its own. -/
theorem C108_interleaved (X : Codecs) (decode : Bytes → Option Manifest) (items : List Item) (ws : List (Nat × Written))
    (evs : List Event) (w : Main) (ha : WellFormedArchive decode items ws) (hp : Plain evs)
    (hr : (Main.start true items).run X decode evs = .ok w) (hs : w.serves) (hl : w.listening = true) :
    ∃ ops, Interleaved (archived ws) (streamed evs) ops ∧ TokenStore.run X ops .empty = .ok w.store := by
  obtain ⟨ops, h1, h2, -⟩ := served_feed ha hp hr hs hl
  exact ⟨ops, h1, h2⟩

example : ∃ w ops, oneRun loadedAfter = .ok w ∧ Interleaved (archived oneAccounts) oneStream ops ∧
    TokenStore.run Toy.codecs ops .empty = .ok w.store := by
  obtain ⟨w, hr, hw⟩ := of_check (r := oneRun loadedAfter) (p := fun w => isDone w.loader && w.listening) (by decide +kernel)
  simp only [Bool.and_eq_true] at hw
  obtain ⟨ops, h⟩ := C108_interleaved _ _ _ _ _ w one_ok plain_after hr (serves_of hw.1) hw.2
  exact ⟨w, ops, hr, h⟩

/-- **C108**. Every such order is taken by some run: for every order of the archive and the messages in which no call panics,
there are turns of the loader among the messages that give it. -/
theorem C108_every_order (X : Codecs) (decode : Bytes → Option Manifest) (items : List Item) (ws : List (Nat × Written))
    (msgs : List Event) (ops : List TOp) (s : TokenStore) (ha : WellFormedArchive decode items ws) (hp : Plain msgs)
    (hm : ∀ e ∈ msgs, ∃ σ m, e = .message σ m) (hi : Interleaved (archived ws) (streamed msgs) ops)
    (hr : TokenStore.run X ops .empty = .ok s) :
    ∃ evs w, evs.filter (fun e => match e with | .load => false | _ => true) = msgs ∧
      (Main.start true items).run X decode evs = .ok w ∧ w.serves ∧ w.listening = true ∧ w.store = s := by
  obtain ⟨evs, w, h1, h2⟩ := reach_any (X := X) (w := Main.start true items) (Nat.le_refl _) (.opening ha) rfl hp hm hi hr
  exact ⟨evs, w, by rw [← h1]; rfl, h2⟩

/-- The order of `loadedAfter`. -/
example : ∃ evs w, evs.filter (fun e => match e with | .load => false | _ => true) =
      [aliceChanges, slotMsg 4 .confirmed, slotMsg 5 .confirmed, slotMsg 5 .finalized] ∧
    oneRun evs = .ok w ∧ w.serves ∧ w.listening = true ∧
    w.store = okStore (TokenStore.run Toy.codecs (.init wMint.submitted :: oneStream ++ [.init (wToken Toy.alice 12).submitted]) .empty) := by
  refine C108_every_order Toy.codecs oneDecode _ _ _ (.init wMint.submitted :: oneStream ++ [.init (wToken Toy.alice 12).submitted]) _ one_ok
    (plain_of ?_) ?_ ?_ (by decide +kernel)
  · intro e he
    simp only [List.mem_cons, List.not_mem_nil, or_false] at he
    rcases he with rfl | rfl | rfl | rfl <;> first | exact .inl rfl | exact .inr (.inr ⟨_, _, rfl⟩)
  · intro e he
    simp only [List.mem_cons, List.not_mem_nil, or_false] at he
    rcases he with rfl | rfl | rfl | rfl <;> exact ⟨_, _, rfl⟩
  · rw [archived, one_owned]
    exact .left (.right (.right (.right (.right (.left .nil)))))

end LAM.Props
