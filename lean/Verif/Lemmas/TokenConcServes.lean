import Verif.Lemmas.TokenConcInv
import Verif.Lemmas.TokenStoreQuery
/-!
# Concurrent calls of the token program store: every call keeps track of what it was asked for
-/
namespace LAM.TokConc
open Token Run Spec ProcStore
open Spl (tokenId token2022Id)

/-! ## What the threads hold -/

/-- The call was made. -/
def Called (log : List (Nat × Event)) (k : Call) : Prop := ∃ t, (t, Event.call k) ∈ log

/-- More accounts to store, and the reply. -/
def AfterOK (X : Codecs) (log : List (Nat × Event)) (g : List Pubkey) (k : Call) (f : After) : Prop :=
  (∀ x ∈ f.todo, From X g (Settled log) x.1.account) ∧ ReplyOK X log k f.reply

/-- What unfinalized states are looked up for. -/
def ScanOK (X : Codecs) (log : List (Nat × Event)) : Call → Commitment → Scan → Prop
  | .get pk c, c', .one pk' => c' = c ∧ c ≠ .finalized ∧ pk' = pk
  | .gpa p fs c, c', .overlay l => c' = c ∧ c ≠ .finalized ∧ Answerable p fs ∧
      ∀ b ∈ l, Stems X (Settled log) b ∧ FinalSlot log b.slot
  | _, _, _ => False

/-- Unfinalized states that were found. -/
def AnsOK (X : Codecs) (log : List (Nat × Event)) (g : List Pubkey) (c : Commitment) (keys : List Pubkey) (r : Answers) : Prop :=
  r.length = keys.length ∧ ∀ (i : Nat) (pk : Pubkey) (x : Processed) (k : Nat), keys[i]? = some pk → r[i]? = some (some (x, k)) →
    x.account.pubkey = pk ∧ From X g (NotedAt log k x.wv) x.account ∧ (c = .confirmed → ConfirmedChain log k)

/-- Accounts of an answer. -/
def OutOK (X : Codecs) (log : List (Nat × Event)) : Call → Job → AccountData → Prop
  | .get pk c, .one, b => b.pubkey = pk ∧ Shown X log c b
  | .gpa p fs _, .found .., b => (Stems X (Settled log) b ∧ FinalSlot log b.slot) ∧
      ∀ fl owner, fs = some fl → AsksOwner p fl owner → TokenAccountOf X b owner (AsksMint p fl)
  | .gpa _ _ c, .overlay, b => Shown X log c b
  | .process info _, .confirmed, b => Stems X (fun a => Noted log a ∧ a.slot = b.slot ∧ a.wv = b.wv) b ∧ b.slot = info.slot
  | .process info _, .finalized _, b => Stems X (fun a => Noted log a ∧ a.slot = b.slot ∧ a.wv = b.wv) b ∧ Up log info.slot b.slot
  | _, _, _ => False

/-- What is converted to be shown. -/
def ConvOK (X : Codecs) (log : List (Nat × Event)) (g : List Pubkey) (c : Commitment) (x : ProgramAccount) (slot : Nat) : Prop :=
  (From X g (Settled log) x ∧ FinalSlot log slot) ∨
    (c ≠ .finalized ∧ From X g (fun a => Noted log a ∧ a.slot = slot) x ∧ (c = .confirmed → ConfirmedChain log slot))

/-- Accounts that are converted for an answer. -/
def ItemOK (X : Codecs) (log : List (Nat × Event)) (g : List Pubkey) : Call → Job → Item → Prop
  | k, j, .keep a => OutOK X log k j a
  | .get pk c, .one, .conv x slot _ => ConvOK X log g c x slot ∧ x.pubkey = pk
  | .gpa p fs _, .found .., .conv x slot _ => FinalSlot log slot ∧ ∃ t, x = .token t ∧ (t.isDeleted = true ∨ (From X g (Settled log) x ∧
      ∀ fl owner, fs = some fl → AsksOwner p fl owner → t.owner = owner ∧ ∀ mint, AsksMint p fl mint → Issued g t.mint mint))
  | .gpa _ _ c, .overlay, .conv x slot _ => ConvOK X log g c x slot
  | .process info _, .confirmed, .conv x slot wv => From X g (NotedAt log slot wv) x ∧ slot = info.slot
  | .process info _, .finalized _, .conv x slot wv => From X g (NotedAt log slot wv) x ∧ Up log info.slot slot
  | _, _, _ => False

/-- What the answer is for. -/
def JobOK (X : Codecs) (log : List (Nat × Event)) (g : List Pubkey) : Call → Job → Prop
  | .get .., .one => True
  | .gpa p fs c, .found q _ => p = q.program ∧ fs = some q.filters ∧ c = q.c ∧ Answerable p fs
  | .gpa p fs c, .overlay => c ≠ .finalized ∧ Answerable p fs
  | .process _ c, .confirmed => c = .confirmed
  | .process _ c, .finalized l => c = .finalized ∧ ∀ x ∈ l, From X g (Settled log) x.1.account
  | _, _ => False

/-- A thread at this program counter works on this call; `n` is the number of places for token accounts. -/
inductive Serves (X : Codecs) (log : List (Nat × Event)) (g : List Pubkey) (n : Nat) : Call → Pc → Prop where
  | chkIndex {a c} : Called log (.submit a c) → Serves X log g n (.submit a c) (.chkIndex a c)
  | chkMultisig {a c} : Called log (.submit a c) → Serves X log g n (.submit a c) (.chkMultisig a c)
  | chkBucket {a c} : Called log (.submit a c) → (∀ p, ¬ TokenProgramOwned a p) → Serves X log g n (.submit a c) (.chkBucket a c)
  | chkAccounts {a c} : Called log (.submit a c) → (∀ p, ¬ TokenProgramOwned a p) → Serves X log g n (.submit a c) (.chkAccounts a c)
  | classify {a c} : Called log (.submit a c) → Serves X log g n (.submit a c) (.classify a c)
  | insert {a c x} : From X g (NotedAt log a.slot a.wv) x → x.pubkey = a.pubkey → c = some .processed ∨ c = some .confirmed →
      ((∃ p, TokenProgramOwned a p) → Readable X a) → Serves X log g n (.submit a c) (.insert a x)
  | add {k x f} : From X g (Settled log) x → AfterOK X log g k f → Serves X log g n k (.add x f)
  | save {k t f} : From X g (Settled log) (.token t) → AfterOK X log g k f → Serves X log g n k (.save t f)
  | pushMint {k t i f} : AfterOK X log g k f → Serves X log g n k (.pushMint t i f)
  | pushOwner {k t i f} : AfterOK X log g k f → Serves X log g n k (.pushOwner t i f)
  | putMint {k m i new f} : Issued g i m.pubkey → From X g (Settled log) (.mint m) → AfterOK X log g k f →
      Serves X log g n k (.putMint m i new f)
  | eraseMint {k i f} : AfterOK X log g k f → Serves X log g n k (.eraseMint i f)
  | eraseByMint {k i f} : AfterOK X log g k f → Serves X log g n k (.eraseByMint i f)
  | again {k pk f} : AfterOK X log g k f → Serves X log g n k (.again pk f)
  | dropBucket {k pk f} : AfterOK X log g k f → Serves X log g n k (.dropBucket pk f)
  | entomb {k pk is f} : (∀ i ∈ is, i < n) → AfterOK X log g k f → Serves X log g n k (.entomb pk is f)
  | scanSlot {k c j} : ScanOK X log k c j → Serves X log g n k (.scanSlot c j)
  | scan {k c i j} : ScanOK X log k c j → i = 0 ∨ Notified log .confirmed i → Serves X log g n k (.scan c i j)
  | rescan {k i ret j} : ScanOK X log k .processed j → AnsOK X log g .processed j.keys ret → Serves X log g n k (.rescan i ret j)
  | finMultisig {pk c} : Serves X log g n (.get pk c) (.finMultisig pk)
  | finMultisigSlot {pk c m} : From X g (Settled log) (.multisig m pk) → Serves X log g n (.get pk c) (.finMultisigSlot pk m)
  | finIndex {pk c} : Serves X log g n (.get pk c) (.finIndex pk)
  | finMint {pk c i} : Issued g i pk → Serves X log g n (.get pk c) (.finMint pk i)
  | finMintSlot {pk c i m} : From X g (Settled log) (.mint m) → m.pubkey = pk → Serves X log g n (.get pk c) (.finMintSlot pk i m)
  | finBucket {pk c} : Serves X log g n (.get pk c) (.finBucket pk)
  | finAccounts {pk c} : Serves X log g n (.get pk c) (.finAccounts pk)
  | finSlot {pk c t} : From X g (Settled log) (.token t) → t.pubkey = pk → Serves X log g n (.get pk c) (.finSlot t)
  | gpaStart {p fs c} : Serves X log g n (.gpa p fs c) (.gpaStart p fs c)
  | gpaOwner {p fs c slot owner mint} : FinalSlot log slot → Answerable p (some fs) → ownerMintFilter p fs = (some owner, mint) →
      Serves X log g n (.gpa p (some fs) c) (.gpaOwner ⟨p, fs, c⟩ slot owner mint)
  | gpaIndex {p fs c slot owner mint is} : FinalSlot log slot → Answerable p (some fs) → ownerMintFilter p fs = (some owner, mint) →
      Serves X log g n (.gpa p (some fs) c) (.gpaIndex ⟨p, fs, c⟩ slot owner mint is)
  | gpaGet {p fs c slot owner mint mi is} : FinalSlot log slot → Answerable p (some fs) → ownerMintFilter p fs = (some owner, mint) →
      (∀ pk, mint = some pk → ∃ i, mi = some i ∧ Issued g i pk) →
      Serves X log g n (.gpa p (some fs) c) (.gpaGet ⟨p, fs, c⟩ slot owner mi is)
  | gpaMint {p fs c slot mint} : FinalSlot log slot → Answerable p (some fs) → ownerMintFilter p fs = (none, some mint) →
      Serves X log g n (.gpa p (some fs) c) (.gpaMint ⟨p, fs, c⟩ slot mint)
  | gpaByMint {p fs c slot mint i} : FinalSlot log slot → Answerable p (some fs) → ownerMintFilter p fs = (none, some mint) →
      Serves X log g n (.gpa p (some fs) c) (.gpaByMint ⟨p, fs, c⟩ slot mint i)
  | gpaMintGet {p fs c slot mint i is} : FinalSlot log slot → Answerable p (some fs) → ownerMintFilter p fs = (none, some mint) →
      Serves X log g n (.gpa p (some fs) c) (.gpaMintGet ⟨p, fs, c⟩ slot mint i is)
  | gpaMints {p fs c slot shards out} : FinalSlot log slot → Answerable p (some fs) → ownerMintFilter p fs = (none, none) →
      (∀ b ∈ out, Stems X (Settled log) b ∧ FinalSlot log b.slot) →
      Serves X log g n (.gpa p (some fs) c) (.gpaMints ⟨p, fs, c⟩ slot shards out)
  | convert {k l out j} : JobOK X log g k j → (∀ x ∈ l, ItemOK X log g k j x) → (∀ b ∈ out, OutOK X log k j b) →
      Serves X log g n k (.convert l out j)
  | psStart {info c} : Called log (.process info c) → Serves X log g n (.process info c) (.psStart info c)
  | psConfirm {info} : Called log (.process info .confirmed) → Serves X log g n (.process info .confirmed) (.psConfirm info)
  | psUpdate {info c} : Called log (.process info c) → c ≠ .processed → Serves X log g n (.process info c) (.psUpdate info c)
  | psFinal {info} : Called log (.process info .finalized) → Serves X log g n (.process info .finalized) (.psFinal info)
  | psReport {info} : Called log (.process info .confirmed) → Serves X log g n (.process info .confirmed) (.psReport info)
  | psMissing {info} : Called log (.process info .confirmed) → Serves X log g n (.process info .confirmed) (.psMissing info)
  | psFinalize {info} : Called log (.process info .finalized) → Serves X log g n (.process info .finalized) (.psFinalize info)

/-! ## They stay right when other threads go on -/

section Mono
variable {X : Codecs} {log log' : List (Nat × Event)} {g g' : List Pubkey} (hl : log <+: log') (hg : g <+: g')
include hl

theorem Called.mono {k : Call} (h : Called log k) : Called log' k := by
  obtain ⟨t, ht⟩ := h
  exact ⟨t, hl.subset ht⟩

theorem From.sub {x : ProgramAccount} (hg : g <+: g') (h : From X g (Settled log) x) : From X g' (Settled log') x :=
  h.mono hg fun _ ha => ha.mono hl

theorem From.not {x : ProgramAccount} (hg : g <+: g') {k w : Nat} (h : From X g (NotedAt log k w) x) : From X g' (NotedAt log' k w) x :=
  h.mono hg fun _ ha => ha.mono hl

theorem Stems.sub {b : AccountData} (h : Stems X (Settled log) b) : Stems X (Settled log') b := h.mono fun _ ha => ha.mono hl

theorem Stems.not {b : AccountData} (h : Stems X (fun a => Noted log a ∧ a.slot = b.slot ∧ a.wv = b.wv) b) :
    Stems X (fun a => Noted log' a ∧ a.slot = b.slot ∧ a.wv = b.wv) b := h.mono fun _ ha => ⟨ha.1.mono hl, ha.2⟩

theorem AfterOK.mono (hg : g <+: g') {k : Call} {f : After} (h : AfterOK X log g k f) : AfterOK X log' g' k f :=
  ⟨fun x hx => (h.1 x hx).sub hl hg, h.2.mono hl⟩

theorem ScanOK.mono {k : Call} {c : Commitment} {j : Scan} (h : ScanOK X log k c j) : ScanOK X log' k c j := by
  cases k <;> cases j <;> try exact h
  exact ⟨h.1, h.2.1, h.2.2.1, fun b hb => ⟨(h.2.2.2 b hb).1.sub hl, (h.2.2.2 b hb).2.mono hl⟩⟩

theorem AnsOK.mono (hg : g <+: g') {c : Commitment} {keys : List Pubkey} {r : Answers} (h : AnsOK X log g c keys r) :
    AnsOK X log' g' c keys r :=
  ⟨h.1, fun i pk x k h1 h2 => ⟨(h.2 i pk x k h1 h2).1, (h.2 i pk x k h1 h2).2.1.not hl hg,
    fun hc => ((h.2 i pk x k h1 h2).2.2 hc).mono hl⟩⟩

theorem OutOK.mono {k : Call} {j : Job} {b : AccountData} (h : OutOK X log k j b) : OutOK X log' k j b := by
  cases k <;> cases j <;> try exact h
  · exact ⟨h.1.not hl, h.2⟩
  · exact ⟨Stems.not hl h.1, h.2.mono hl⟩
  · exact ⟨h.1, h.2.mono hl⟩
  · exact ⟨⟨h.1.1.sub hl, h.1.2.mono hl⟩, h.2⟩
  · exact Shown.mono hl h

theorem ConvOK.mono (hg : g <+: g') {c : Commitment} {x : ProgramAccount} {slot : Nat} (h : ConvOK X log g c x slot) :
    ConvOK X log' g' c x slot :=
  h.imp (fun h => ⟨h.1.sub hl hg, h.2.mono hl⟩)
    fun h => ⟨h.1, h.2.1.mono hg fun _ ha => ⟨ha.1.mono hl, ha.2⟩, fun hc => (h.2.2 hc).mono hl⟩

theorem ItemOK.mono (hg : g <+: g') {k : Call} {j : Job} {x : Item} (h : ItemOK X log g k j x) : ItemOK X log' g' k j x := by
  cases x with
  | keep a =>
    have h' : OutOK X log k j a := by cases k <;> cases j <;> exact h
    have := h'.mono hl
    cases k <;> cases j <;> exact this
  | conv x slot wv =>
    cases k <;> cases j <;> try exact h
    · exact ⟨h.1.not hl hg, h.2⟩
    · exact ⟨From.not hl hg h.1, h.2.mono hl⟩
    · exact ⟨h.1.mono hl hg, h.2⟩
    · obtain ⟨h0, t, h1, h2⟩ := h
      exact ⟨h0.mono hl, t, h1, h2.imp id fun h2 => ⟨h2.1.sub hl hg, fun fl o h3 h4 =>
        ⟨(h2.2 fl o h3 h4).1, fun m hm => ((h2.2 fl o h3 h4).2 m hm).mono hg⟩⟩⟩
    · exact ConvOK.mono hl hg h

theorem JobOK.mono (hg : g <+: g') {k : Call} {j : Job} (h : JobOK X log g k j) : JobOK X log' g' k j := by
  cases k <;> cases j <;> try exact h
  exact ⟨h.1, fun x hx => (h.2 x hx).sub hl hg⟩

theorem Serves.mono (hg : g <+: g') {n n' : Nat} (hn : n ≤ n') {k : Call} {p : Pc} (h : Serves X log g n k p) :
    Serves X log' g' n' k p := by
  cases h with
  | chkIndex h => exact .chkIndex (h.mono hl)
  | chkMultisig h => exact .chkMultisig (h.mono hl)
  | chkBucket h h' => exact .chkBucket (h.mono hl) h'
  | chkAccounts h h' => exact .chkAccounts (h.mono hl) h'
  | classify h => exact .classify (h.mono hl)
  | insert h h' h1 h2 => exact .insert (h.not hl hg) h' h1 h2
  | add h h' => exact .add (h.sub hl hg) (h'.mono hl hg)
  | save h h' => exact .save (h.sub hl hg) (h'.mono hl hg)
  | pushMint h => exact .pushMint (h.mono hl hg)
  | pushOwner h => exact .pushOwner (h.mono hl hg)
  | putMint h h' h'' => exact .putMint (h.mono hg) (h'.sub hl hg) (h''.mono hl hg)
  | eraseMint h => exact .eraseMint (h.mono hl hg)
  | eraseByMint h => exact .eraseByMint (h.mono hl hg)
  | again h => exact .again (h.mono hl hg)
  | dropBucket h => exact .dropBucket (h.mono hl hg)
  | entomb h h' => exact .entomb (fun i hi => Nat.lt_of_lt_of_le (h i hi) hn) (h'.mono hl hg)
  | scanSlot h => exact .scanSlot (h.mono hl)
  | scan h h' => exact .scan (h.mono hl) (h'.imp id (Notified.mono hl))
  | rescan h h' => exact .rescan (h.mono hl) (h'.mono hl hg)
  | finMultisig => exact .finMultisig
  | finMultisigSlot h => exact .finMultisigSlot (h.sub hl hg)
  | finIndex => exact .finIndex
  | finMint h => exact .finMint (h.mono hg)
  | finMintSlot h h' => exact .finMintSlot (h.sub hl hg) h'
  | finBucket => exact .finBucket
  | finAccounts => exact .finAccounts
  | finSlot h h' => exact .finSlot (h.sub hl hg) h'
  | gpaStart => exact .gpaStart
  | gpaOwner h0 h h' => exact .gpaOwner (h0.mono hl) h h'
  | gpaIndex h0 h h' => exact .gpaIndex (h0.mono hl) h h'
  | gpaGet h0 h h' h'' =>
    refine .gpaGet (h0.mono hl) h h' fun pk hp => ?_
    obtain ⟨i, h1, h2⟩ := h'' pk hp
    exact ⟨i, h1, h2.mono hg⟩
  | gpaMint h0 h h' => exact .gpaMint (h0.mono hl) h h'
  | gpaByMint h0 h h' => exact .gpaByMint (h0.mono hl) h h'
  | gpaMintGet h0 h h' => exact .gpaMintGet (h0.mono hl) h h'
  | gpaMints h0 h h' h'' => exact .gpaMints (h0.mono hl) h h' fun b hb => ⟨(h'' b hb).1.sub hl, (h'' b hb).2.mono hl⟩
  | convert h h' h'' => exact .convert (h.mono hl hg) (fun x hx => (h' x hx).mono hl hg) fun b hb => (h'' b hb).mono hl
  | psStart h => exact .psStart (h.mono hl)
  | psConfirm h => exact .psConfirm (h.mono hl)
  | psUpdate h h' => exact .psUpdate (h.mono hl) h'
  | psFinal h => exact .psFinal (h.mono hl)
  | psReport h => exact .psReport (h.mono hl)
  | psMissing h => exact .psMissing (h.mono hl)
  | psFinalize h => exact .psFinalize (h.mono hl)

end Mono

/-! ## Steps -/

/-- How often indexes can still be given out by a thread. -/
def Pc.weight : Pc → Nat
  | .chkIndex .. | .chkMultisig .. | .chkBucket .. | .chkAccounts .. | .classify .. => 2
  | .insert .. => 1
  | .add _ f => 1 + f.todo.length
  | .save _ f | .pushMint _ _ f | .pushOwner _ _ f | .putMint _ _ _ f | .eraseMint _ f | .eraseByMint _ f | .again _ f
  | .dropBucket _ f | .entomb _ _ f => f.todo.length
  | .convert _ _ (.finalized l) => l.length
  | _ => 0

/-- The next program counter or the reply is right. -/
def NextOK (X : Codecs) (log : List (Nat × Event)) (g : List Pubkey) (n : Nat) (k : Call) : Next → Prop
  | .go p => Serves X log g n k p
  | .ret r => ReplyOK X log k r

def Next.weight : Next → Nat
  | .go p => p.weight
  | .ret _ => 0

theorem after_ok {X : Codecs} {log : List (Nat × Event)} {g : List Pubkey} {n : Nat} {k : Call} {f : After} (h : AfterOK X log g k f) :
    NextOK X log g n k f.next ∧ f.next.weight ≤ f.todo.length := by
  unfold After.next
  split
  · exact ⟨h.2, Nat.zero_le _⟩
  · rename_i x l e
    refine ⟨.add (h.1 x (by simp [e])) ⟨fun y hy => h.1 y (by simp [e, hy]), h.2⟩, ?_⟩
    simp [Next.weight, Pc.weight, e]
    omega

theorem job_ok {X : Codecs} {log : List (Nat × Event)} {g : List Pubkey} {n : Nat} {k : Call} {j : Job} {out : List AccountData}
    (h : JobOK X log g k j) (ho : ∀ b ∈ out, OutOK X log k j b) :
    NextOK X log g n k (j.next out) ∧ (j.next out).weight ≤ Pc.weight (.convert [] out j) := by
  cases k <;> cases j <;> try exact h.elim
  case process.confirmed info c =>
    have h : c = .confirmed := h
    subst h
    exact ⟨⟨by simp, fun b hb => ⟨(ho b hb).1, fun _ => (ho b hb).2, by simp⟩⟩, Nat.zero_le _⟩
  case process.finalized info c l =>
    obtain ⟨rfl, h⟩ := h
    exact after_ok ⟨h, by simp, fun b hb => ⟨(ho b hb).1, by simp, fun _ => (ho b hb).2⟩⟩
  case get.one pk c =>
    refine ⟨fun b hb => ?_, Nat.zero_le _⟩
    exact ho b (List.mem_of_head? hb)
  case gpa.found p fs c q mi =>
    obtain ⟨rfl, rfl, rfl, h⟩ := h
    simp only [Job.next]
    split
    · exact ⟨⟨h, fun b hb => ⟨.inl (ho b hb).1, fun _ => (ho b hb).2⟩⟩, Nat.zero_le _⟩
    · rename_i hc
      exact ⟨.scanSlot ⟨rfl, hc, h, fun b hb => (ho b hb).1⟩, Nat.zero_le _⟩
  case gpa.overlay p fs c =>
    exact ⟨⟨h.2, fun b hb => ⟨ho b hb, fun hc => absurd hc h.1⟩⟩, Nat.zero_le _⟩

/-- A converted account may be shown. -/
theorem shown_ok {X : Codecs} {log : List (Nat × Event)} {g : List Pubkey} (hg : g.length ≤ 2 ^ 32) {s : TokenStore}
    (hs : StoreOK X log g s) {c : Commitment} {x : ProgramAccount} {slot wv : Nat} (h : ConvOK X log g c x slot) {b : AccountData}
    (hr : x.toSolana s.mints slot wv = .ok (some b)) : Shown X log c b ∧ b.pubkey = x.pubkey := by
  rcases h with ⟨h, hf⟩ | ⟨hc, h, hf⟩
  · obtain ⟨h1, h2, h3, -⟩ := back hg h hs.mintKeys hr
    exact ⟨.inl ⟨h1, h3 ▸ hf⟩, h2⟩
  · obtain ⟨h1, h2, h3, -⟩ := back hg h hs.mintKeys hr
    exact ⟨.inr ⟨hc, h3 ▸ h1, h3 ▸ hf⟩, h2⟩

/-- A converted account is right. -/
theorem conv_ok {X : Codecs} {log : List (Nat × Event)} {g : List Pubkey} (hg : g.length ≤ 2 ^ 32) {s : TokenStore}
    (hs : StoreOK X log g s) {k : Call} {j : Job} {x : ProgramAccount} {slot wv : Nat} (h : ItemOK X log g k j (.conv x slot wv))
    {r : Option AccountData} (hr : x.toSolana s.mints slot wv = .ok r) : ∀ b ∈ r.toList, OutOK X log k j b := by
  intro b hb
  have hb : r = some b := by simpa using hb
  subst hb
  cases k <;> cases j <;> try exact h.elim
  case process.confirmed info c =>
    obtain ⟨h1, -, h3, h4⟩ := back hg h.1 hs.mintKeys hr
    exact ⟨h1.mono fun a ha => ⟨ha.1, ha.2.1.trans h3.symm, ha.2.2.trans h4.symm⟩, h3.trans h.2⟩
  case process.finalized info c l =>
    obtain ⟨h1, -, h3, h4⟩ := back hg h.1 hs.mintKeys hr
    exact ⟨h1.mono fun a ha => ⟨ha.1, ha.2.1.trans h3.symm, ha.2.2.trans h4.symm⟩, h3 ▸ h.2⟩
  case get.one pk c =>
    obtain ⟨h1, h2⟩ := shown_ok hg hs h.1 hr
    exact ⟨h2.trans h.2, h1⟩
  case gpa.found p fs c q mi =>
    obtain ⟨h0, t, rfl, ht | ⟨ht, hw⟩⟩ := h
    · simp [ProgramAccount.toSolana, tokenToSolana, ht] at hr
    · obtain ⟨h1, -, h3, -, bs, sb, h5, h6, h7, h8⟩ := token_back hg ht hs.mintKeys hr
      exact ⟨⟨h1, h3 ▸ h0⟩, fun fl o hf ha => ⟨bs, sb, h5, h6, h7.trans (hw fl o hf ha).1, fun pk hp => h8.unique hg ((hw fl o hf ha).2 pk hp)⟩⟩
  case gpa.overlay p fs c => exact (shown_ok hg hs h hr).1

/-- States found on the confirmed chain. -/
theorem confirmed_ok {X : Codecs} {log : List (Nat × Event)} {g : List Pubkey} {s : TokenStore} (hs : StoreOK X log g s) {fuel n : Nat}
    {c : Commitment} {keys : List Pubkey} {ret r : Answers} (hr : AnsOK X log g c keys ret)
    (hn : c = .confirmed → n = 0 ∨ Notified log .confirmed n) (h : getConfirmed fuel s.processed keys ret n = .ok r) :
    AnsOK X log g c keys r := by
  obtain ⟨h1, h2⟩ := getConfirmed_spec fuel hr.1 h
  refine ⟨h1, fun i pk x k hi hx => ?_⟩
  obtain ⟨h3, h4⟩ := h2 i pk hi
  have hlt : i < ret.length := by rw [hr.1]; exact (List.getElem?_eq_some_iff.1 hi).1
  cases hv : ret[i] with
  | some v =>
    have hv : ret[i]? = some (some v) := by rw [List.getElem?_eq_getElem hlt, hv]
    rw [h3 v hv] at hx
    simp only [Option.some.injEq] at hx
    subst hx
    exact hr.2 i pk x k hi hv
  | none =>
    have hv : ret[i]? = some none := by rw [List.getElem?_eq_getElem hlt, hv]
    have hx := (h4 hv x k).1 hx
    obtain ⟨e, h5, h6⟩ := newest_mem hx
    exact ⟨hs.proc.key _ _ _ _ h5 h6, hs.procFrom _ _ _ _ h5 h6, fun hc => ⟨n, hn hc, hs.slots.newest .self hx⟩⟩

theorem ans_nil (X : Codecs) (log : List (Nat × Event)) (g : List Pubkey) (c : Commitment) (keys : List Pubkey) :
    AnsOK X log g c keys (List.replicate keys.length none) := by
  refine ⟨by simp, fun i pk x k _ h => ?_⟩
  rw [List.getElem?_replicate] at h
  split at h <;> simp at h

/-- States found above the confirmed slot. -/
theorem scan_ok {X : Codecs} {log : List (Nat × Event)} {g : List Pubkey} {s : TokenStore} (hs : StoreOK X log g s) {n : Nat}
    {keys : List Pubkey} (l : List (Nat × BySlot)) (hl : ∀ e ∈ l, e ∈ s.processed) {ret r : Answers} {b : Bool}
    (hr : AnsOK X log g .processed keys ret) (h : scanProcessed keys n l ret = (r, b)) : AnsOK X log g .processed keys r := by
  induction l generalizing ret with
  | nil => simp [scanProcessed] at h; rw [← h.1]; exact hr
  | cons e l ih =>
    obtain ⟨slot, e⟩ := e
    have hf : AnsOK X log g .processed keys (ProcStore.fill slot e keys ret) := by
      refine ⟨length_fill _ _ _ _ hr.1, fun i pk x k hi hx => ?_⟩
      have hlt : i < ret.length := by rw [hr.1]; exact (List.getElem?_eq_some_iff.1 hi).1
      have hv : ret[i]? = some ret[i] := List.getElem?_eq_getElem hlt
      rw [getElem?_fill slot e keys ret i pk _ hi hv] at hx
      cases hw : ret[i] with
      | some v =>
        rw [hw] at hx hv
        simp at hx
        subst hx
        exact hr.2 i pk x k hi hv
      | none =>
        rw [hw] at hx
        simp at hx
        obtain ⟨hx, rfl⟩ := hx
        have hfind := (BMap.mem_iff_find hs.proc.sorted _ _).1 (hl (slot, e) (by simp))
        exact ⟨hs.proc.key _ _ _ _ hfind hx, hs.procFrom _ _ _ _ hfind hx, by simp⟩
    simp only [scanProcessed] at h
    split at h
    · split at h
      · cases h; exact hf
      · exact ih (fun e he => hl e (by simp [he])) hf h
    · cases h; exact hr

theorem overlay_ok {X : Codecs} {log : List (Nat × Event)} {g : List Pubkey} {p : Pubkey} {fs : Option (List AccountFilterType)}
    {c : Commitment} (l : List AccountData) (hl : ∀ b ∈ l, Stems X (Settled log) b ∧ FinalSlot log b.slot) (r : Answers)
    (hr : ∀ x k, some (x, k) ∈ r → ConvOK X log g c x.account k) :
    ∀ x ∈ overlayItems l r, ItemOK X log g (.gpa p fs c) .overlay x := by
  induction l generalizing r with
  | nil =>
    cases r with
    | nil => simp [overlayItems]
    | cons o r => cases o <;> simp [overlayItems]
  | cons a l ih =>
    cases r with
    | nil =>
      intro x hx
      simp only [overlayItems, List.mem_map] at hx
      obtain ⟨b, hb, rfl⟩ := hx
      exact .inl (hl b hb)
    | cons o r =>
      have ih := ih (fun b hb => hl b (by simp [hb])) r fun x k hx => hr x k (by simp [hx])
      cases o with
      | none =>
        intro x hx
        simp only [overlayItems, List.mem_cons] at hx
        rcases hx with rfl | hx
        · exact .inl (hl a (by simp))
        · exact ih x hx
      | some v =>
        obtain ⟨v, k⟩ := v
        intro x hx
        simp only [overlayItems, List.mem_cons] at hx
        rcases hx with rfl | hx
        · exact hr v k (by simp)
        · exact ih x hx

/-- After the unfinalized states are looked up. -/
theorem found_ok {X : Codecs} {log : List (Nat × Event)} {g : List Pubkey} {n : Nat} {k : Call} {c : Commitment} {j : Scan} {r : Answers}
    {nx : Next} (hj : ScanOK X log k c j) (hr : AnsOK X log g c j.keys r) (h : j.next r = .ok nx) :
    NextOK X log g n k nx ∧ nx.weight = 0 := by
  cases k <;> cases j <;> try exact hj.elim
  case get.one pk c pk' =>
    obtain ⟨rfl, hc, rfl⟩ := hj
    simp only [Scan.next, Run.bind_eq_ok] at h
    obtain ⟨o, ho, h⟩ := h
    have ho : r[0]? = some o := by
      rw [← List.head?_eq_getElem?]
      cases hh : r.head? <;> simp [hh, Run.unwrap] at ho
      rw [ho]
    split at h <;> simp only [Run.pure_eq, Run.ok.injEq] at h <;> subst h
    · obtain ⟨h1, h2, h3⟩ := hr.2 0 pk' _ _ (by simp [Scan.keys]) ho
      refine ⟨.convert trivial (fun x hx => ?_) (by simp), rfl⟩
      simp only [List.mem_singleton] at hx
      subst hx
      exact ⟨.inr ⟨hc, h2.mono (List.prefix_refl _) fun a ha => ⟨ha.1, ha.2.1⟩, h3⟩, h1⟩
    · exact ⟨.finMultisig, rfl⟩
  case gpa.overlay p fs c l =>
    obtain ⟨rfl, hc, ha, hb⟩ := hj
    simp only [Scan.next, Run.ok.injEq] at h
    subst h
    refine ⟨.convert ⟨hc, ha⟩ (overlay_ok l hb r fun x k hx => ?_) (by simp), rfl⟩
    obtain ⟨i, hi⟩ := List.getElem?_of_mem hx
    have hlt : i < (Scan.overlay l).keys.length := by rw [← hr.1]; exact (List.getElem?_eq_some_iff.1 hi).1
    obtain ⟨-, h2, h3⟩ := hr.2 i _ x k (List.getElem?_eq_getElem hlt) hi
    exact .inr ⟨hc, h2.mono (List.prefix_refl _) fun a ha => ⟨ha.1, ha.2.1⟩, h3⟩

theorem mem_filterRun {α : Type} {f : α → Run Bool} {l r : List α} (h : TokenStorage.filterRun f l = .ok r) : ∀ x ∈ r, x ∈ l := by
  induction l generalizing r with
  | nil => simp [TokenStorage.filterRun] at h; simp [h]
  | cons a l ih =>
    simp only [TokenStorage.filterRun, Run.bind_eq_ok, Run.pure_eq, Run.ok.injEq] at h
    obtain ⟨b, -, ys, hy, rfl⟩ := h
    intro x hx
    split at hx
    · rcases List.mem_cons.1 hx with rfl | hx
      · simp
      · simp [ih hy x hx]
    · simp [ih hy x hx]

theorem answerable {p : Pubkey} {fs : List AccountFilterType} (hp : p = tokenId ∨ p = token2022Id)
    (h : .datasize 82 ∈ fs ∨ ownerMintFilter p fs ≠ (none, none)) : Answerable p (some fs) := by
  refine ⟨hp, fs, rfl, h.imp id fun h => ?_⟩
  obtain ⟨h1, h2⟩ := ownerMint_iff p fs
  cases ho : (ownerMintFilter p fs).1 with
  | some pk => exact ⟨pk, .inl ((h1 pk).1 ho)⟩
  | none =>
    cases hm : (ownerMintFilter p fs).2 with
    | some pk => exact ⟨pk, .inr ((h2 pk).1 hm)⟩
    | none => exact absurd (Prod.ext ho hm) h

theorem not_answerable {p : Pubkey} {fs : Option (List AccountFilterType)}
    (h : (p ≠ tokenId ∧ p ≠ token2022Id) ∨ ∀ l, fs = some l → ownerMintFilter p l = (none, none) ∧ .datasize 82 ∉ l) :
    ¬ Answerable p fs := by
  rintro ⟨hp, l, rfl, hl⟩
  rcases h with ⟨h1, h2⟩ | h
  · rcases hp with hp | hp
    · exact h1 hp
    · exact h2 hp
  · obtain ⟨h1, h2⟩ := h l rfl
    obtain ⟨h3, h4⟩ := ownerMint_iff p l
    rw [h1] at h3 h4
    rcases hl with hl | ⟨pk, hl | hl⟩
    · exact h2 hl
    · exact absurd ((h3 pk).2 hl) (by simp)
    · exact absurd ((h4 pk).2 hl) (by simp)

theorem noOwner {p : Pubkey} {fs : List AccountFilterType} {m : Option Pubkey} (h : ownerMintFilter p fs = (none, m)) (o : Pubkey) :
    ¬ AsksOwner p fs o := by
  intro ho
  have := ((ownerMint_iff p fs).1 o).2 ho
  rw [h] at this
  simp at this

/-- What is stored of an account of a token program was read. -/
theorem readable {X : Codecs} {T T' : MintTable} {a : AccountData} {x : ProgramAccount} (h : Token.classify X T a = .ok (some x, T'))
    (ho : ∃ p, TokenProgramOwned a p) : Readable X a := by
  obtain ⟨p, ho⟩ := ho
  unfold Token.classify at h
  rw [if_neg (owned_not_deleted ho)] at h
  split at h
  · simp only [Run.bind_eq_ok] at h
    obtain ⟨bs, hd, k, hk, h⟩ := h
    split at h
    · simp at h
    · split at h
      · simp at h
      · rename_i m hu
        exact ⟨bs, hd, .inl ⟨m, (Spl.unpackMint_iff _ _).1 hu⟩⟩
    · split at h
      · simp at h
      · rename_i m hu
        exact ⟨bs, hd, .inr (.inl ⟨m, (Spl.unpackAccount_iff _ _).1 hu⟩)⟩
    · split at h
      · simp at h
      · rename_i m hu
        exact ⟨bs, hd, .inr (.inr ⟨m, (Spl.unpackMultisig_iff _ _).1 hu⟩)⟩
  · simp only [Run.bind_eq_ok] at h
    obtain ⟨bs, hd, h⟩ := h
    split at h
    · split at h
      · simp at h
      · rename_i m hu
        exact ⟨bs, hd, .inl ⟨m, (Spl.unpackMint_iff _ _).1 hu⟩⟩
    · split at h
      · split at h
        · simp at h
        · rename_i m hu
          exact ⟨bs, hd, .inr (.inl ⟨m, (Spl.unpackAccount_iff _ _).1 hu⟩)⟩
      · split at h
        · simp at h
        · rename_i m hu
          exact ⟨bs, hd, .inr (.inr ⟨m, (Spl.unpackMultisig_iff _ _).1 hu⟩)⟩

/-- What is not stored could not be read. -/
theorem not_readable {X : Codecs} {T T' : MintTable} {a : AccountData} (h : Token.classify X T a = .ok (none, T'))
    (ho : ∃ p, TokenProgramOwned a p) {bs : Bytes} (hd : HonestData X a.account.data bs) : ¬ Readable X a := by
  obtain ⟨p, ho⟩ := ho
  rw [classify_eq X T ho hd] at h
  rintro ⟨bs', hd', hl⟩
  have : bs' = bs := by rw [hd.1] at hd'; exact (Run.ok.inj hd').symm
  subst this
  rcases hl with ⟨m, hm⟩ | ⟨m, hm⟩ | ⟨m, hm⟩
  · rw [if_pos hm.length, (Spl.unpackMint_iff _ _).2 hm] at h
    simp at h
  · rw [if_neg (by rw [hm.length]; decide), if_pos hm.length, (Spl.unpackAccount_iff _ _).2 hm] at h
    simp at h
  · rw [if_neg (by rw [hm.length]; decide), if_neg (by rw [hm.length]; decide), if_pos hm.length, (Spl.unpackMultisig_iff _ _).2 hm] at h
    simp at h

/-- **A step keeps everything right.** -/
theorem step_ok {E : Env} {log : List (Nat × Event)} {g : List Pubkey} (hg : g.length ≤ 2 ^ 32) {σ : Orders} {s s' : TokenStore}
    (hs : StoreOK E.codecs log g s) {k : Call} {p : Pc} (hv : Serves E.codecs log g s.tokens.accounts.length k p) {nx : Next}
    (ho : Out E σ s p s' nx) :
    ∃ g', g <+: g' ∧ StoreOK E.codecs log g' s' ∧ s.tokens.accounts.length ≤ s'.tokens.accounts.length ∧
      NextOK E.codecs log g' s'.tokens.accounts.length k nx ∧
      g'.length + pending s'.processed + nx.weight ≤ g.length + pending s.processed + p.weight := by
  have same : ∀ (s' : TokenStore) (nx : Next), StoreOK E.codecs log g s' → s.tokens.accounts.length ≤ s'.tokens.accounts.length →
      pending s'.processed = pending s.processed → NextOK E.codecs log g s'.tokens.accounts.length k nx → nx.weight ≤ p.weight →
      ∃ g', g <+: g' ∧ StoreOK E.codecs log g' s' ∧ s.tokens.accounts.length ≤ s'.tokens.accounts.length ∧
      NextOK E.codecs log g' s'.tokens.accounts.length k nx ∧
      g'.length + pending s'.processed + nx.weight ≤ g.length + pending s.processed + p.weight :=
    fun s' nx h1 h2 h3 h4 h5 => ⟨g, List.prefix_refl _, h1, h2, h4, by omega⟩
  have tail : ∀ (s' : TokenStore) (f : After), StoreOK E.codecs log g s' → s.tokens.accounts.length ≤ s'.tokens.accounts.length →
      pending s'.processed = pending s.processed → AfterOK E.codecs log g k f → f.todo.length ≤ p.weight →
      ∃ g', g <+: g' ∧ StoreOK E.codecs log g' s' ∧ s.tokens.accounts.length ≤ s'.tokens.accounts.length ∧
      NextOK E.codecs log g' s'.tokens.accounts.length k f.next ∧
      g'.length + pending s'.processed + f.next.weight ≤ g.length + pending s.processed + p.weight :=
    fun s' f h1 h2 h3 h4 h5 => same s' _ h1 h2 h3 (after_ok h4).1 (Nat.le_trans (after_ok (n := 0) h4).2 h5)
  cases ho
  case chkIndex a c => cases hv with | chkIndex h => exact same _ _ hs (le_refl _) rfl (.chkMultisig h) (le_refl _)
  case chkIndexT a c i hi => cases hv with | chkIndex h => exact same _ _ hs (le_refl _) rfl (.classify h) (le_refl _)
  case chkMultisigT a c => cases hv with | chkMultisig h => exact same _ _ hs (le_refl _) rfl (.classify h) (le_refl _)
  case chkMultisig a c h1 h2 =>
    cases hv with
    | chkMultisig h =>
      refine same _ _ hs (le_refl _) rfl (.chkBucket h fun p hp => ?_) (le_refl _)
      cases p
      · exact h1 hp.2
      · exact h2 hp.2
  case chkBucket a c is h' => cases hv with | chkBucket h h1 => exact same _ _ hs (le_refl _) rfl (.chkAccounts h h1) (le_refl _)
  case chkBucketT a c is h' => cases hv with | chkBucket h => exact same _ _ hs (le_refl _) rfl (.classify h) (le_refl _)
  case chkBucketF a c =>
    cases hv with | chkBucket h h1 => exact same _ _ hs (le_refl _) rfl (fun ⟨p, hp⟩ => absurd hp (h1 p)) (Nat.zero_le _)
  case chkAccountsT a c => cases hv with | chkAccounts h => exact same _ _ hs (le_refl _) rfl (.classify h) (le_refl _)
  case chkAccountsF a c =>
    cases hv with | chkAccounts h h1 => exact same _ _ hs (le_refl _) rfl (fun ⟨p, hp⟩ => absurd hp (h1 p)) (Nat.zero_le _)
  case classifyN a c T hc =>
    cases hv with
    | classify h =>
      have := classify_none hc
      subst this
      exact same _ _ hs (le_refl _) rfl (fun ho => ⟨by simp, fun _ _ ⟨bs, hd⟩ => not_readable hc ho hd⟩) (Nat.zero_le _)
  case classifyI a c x T hc hcm =>
    cases hv with
    | classify h =>
      have hS : NotedAt log a.slot a.wv a := by
        obtain ⟨t, ht⟩ := h
        rcases hcm with rfl | rfl <;> exact ⟨⟨t, _, ht, by simp⟩, rfl, rfl⟩
      obtain ⟨g', h1, h2, h3, h4⟩ := classify_from hs.table hc hS
      refine ⟨g', h1.prefix, hs.mono (List.prefix_refl _) h1.prefix h2, le_refl _, .insert h3 h4 hcm (readable hc), ?_⟩
      have := h1.length
      simp only [Next.weight, Pc.weight]; omega
  case classifyA a c x T hc hcm =>
    cases hv with
    | classify h =>
      have hS : Settled log a := by
        obtain ⟨t, ht⟩ := h
        refine .inl ⟨t, c, ht, ?_⟩
        match c, hcm with
        | none, _ => exact .inl rfl
        | some .finalized, _ => exact .inr rfl
        | some .processed, hcm => simp at hcm
        | some .confirmed, hcm => simp at hcm
      obtain ⟨g', h1, h2, h3, h4⟩ := classify_from hs.table hc hS
      refine ⟨g', h1.prefix, hs.mono (List.prefix_refl _) h1.prefix h2, le_refl _, .add h3 ⟨by simp, fun ho => ⟨fun _ => readable hc ho, by simp⟩⟩, ?_⟩
      have := h1.length
      simp only [Next.weight, Pc.weight, List.length_nil]; omega
  case insert a x =>
    cases hv with
    | insert h h' hcm hrd =>
      obtain ⟨h1, h2⟩ := insert_ok hs h
      rw [h'] at h1 h2
      refine ⟨g, List.prefix_refl _, h1, le_refl _, fun ho => ⟨fun _ => hrd ho, fun _ hc => ?_⟩, ?_⟩
      · rcases hcm with rfl | rfl <;> simp at hc
      simp only [Next.weight, Pc.weight]; omega
  case addToken t f =>
    cases hv with | add h h' => exact same _ _ hs (le_refl _) rfl (.save h h') (by simp only [Next.weight, Pc.weight]; omega)
  case addMint m f i hi =>
    cases hv with
    | add h h' => exact same _ _ hs (le_refl _) rfl (.putMint (hs.table.index _ _ hi) h h') (by simp only [Next.weight, Pc.weight]; omega)
  case addMintNew m f hi =>
    cases hv with
    | add h h' =>
      have hp : g <+: g ++ [m.pubkey] := List.prefix_append _ _
      refine ⟨g ++ [m.pubkey], hp, hs.mono (List.prefix_refl _) hp
        ⟨by simp [hs.table.counter, wrap32_succ], fun pk i hi => (hs.table.index pk i hi).mono hp⟩, le_refl _,
        .putMint (by rw [hs.table.counter]; exact issued_new g _) (h.sub (List.prefix_refl _) hp) (h'.mono (List.prefix_refl _) hp), ?_⟩
      simp only [Next.weight, Pc.weight, List.length_append, List.length_singleton]; omega
  case addMultisig m pk f =>
    cases hv with | add h h' => exact tail _ _ (putMultisig_ok hs h) (le_refl _) rfl h' (by simp only [Pc.weight]; omega)
  case addDeletedMint pk f i hi =>
    cases hv with
    | add h h' => exact same _ _ (eraseIndex_ok hs pk) (le_refl _) rfl (.eraseMint h') (by simp only [Next.weight, Pc.weight]; omega)
  case addDeleted pk f hi =>
    cases hv with | add h h' => exact same _ _ hs (le_refl _) rfl (.again h') (by simp only [Next.weight, Pc.weight]; omega)
  case saveNew t f i T hi =>
    cases hv with
    | save h h' =>
      obtain ⟨r, T', h1, h2, h3⟩ := save_ok hs h
      rw [hi] at h1
      simp only [Run.ok.injEq, Prod.mk.injEq] at h1
      obtain ⟨-, rfl⟩ := h1
      exact same _ _ h2 h3 rfl (.pushMint h') (le_refl _)
  case saveOld t f i T hi =>
    cases hv with
    | save h h' =>
      obtain ⟨r, T', h1, h2, h3⟩ := save_ok hs h
      rw [hi] at h1
      simp only [Run.ok.injEq, Prod.mk.injEq] at h1
      obtain ⟨-, rfl⟩ := h1
      exact tail _ _ h2 h3 rfl h' (le_refl _)
  case pushMint t i f =>
    cases hv with
    | pushMint h =>
      refine same _ _ ?_ (le_refl _) rfl (.pushOwner h) (le_refl _)
      exact ⟨hs.tokens, hs.buckets, hs.table, hs.mints, hs.multisigs, hs.proc, hs.procFrom, hs.slots⟩
  case pushOwner t i f =>
    cases hv with
    | pushOwner h =>
      refine tail _ _ ?_ (le_refl _) rfl h (le_refl _)
      exact ⟨hs.tokens, hs.buckets, hs.table, hs.mints, hs.multisigs, hs.proc, hs.procFrom, hs.slots⟩
  case putMint m i f =>
    cases hv with | putMint h h' h'' => exact tail _ _ (putMint_ok hs h h') (le_refl _) rfl h'' (le_refl _)
  case putMintNew m i f =>
    cases hv with | putMint h h' h'' => exact tail _ _ (putIndex_ok (putMint_ok hs h h') h) (le_refl _) rfl h'' (le_refl _)
  case eraseMint i f =>
    cases hv with | eraseMint h => exact same _ _ (eraseMint_ok hs i) (le_refl _) rfl (.eraseByMint h) (le_refl _)
  case eraseByMint i f =>
    cases hv with
    | eraseByMint h =>
      refine tail _ _ ?_ (le_refl _) rfl h (le_refl _)
      exact ⟨hs.tokens, hs.buckets, hs.table, hs.mints, hs.multisigs, hs.proc, hs.procFrom, hs.slots⟩
  case againMint pk f i hi =>
    cases hv with | again h => exact tail _ _ (eraseIndex_ok hs pk) (le_refl _) rfl h (le_refl _)
  case again pk f hi =>
    cases hv with | again h => exact same _ _ hs (le_refl _) rfl (.dropBucket h) (le_refl _)
  case dropBucket pk f is hi =>
    cases hv with
    | dropBucket h => exact same _ _ (dropBucket_ok hs _) (le_refl _) rfl (.entomb (hs.buckets _ _ hi).2 h) (le_refl _)
  case dropNone pk f hi =>
    cases hv with | dropBucket h => exact tail _ _ hs (le_refl _) rfl h (le_refl _)
  case entomb pk is f i hi =>
    cases hv with | entomb h h' => exact tail _ _ (entomb_ok hs i) (by simp) rfl h' (le_refl _)
  case entombNone pk is f hi =>
    cases hv with | entomb h h' => exact tail _ _ hs (le_refl _) rfl h' (le_refl _)
  case scanSlot c j => cases hv with | scanSlot h => exact same _ _ hs (le_refl _) rfl (.scan h hs.slots.confirmed) (le_refl _)
  case scanConfirmed i j r h1 h2 =>
    cases hv with
    | scan h hn =>
      obtain ⟨h3, h4⟩ := found_ok (n := s.tokens.accounts.length) h (confirmed_ok hs (ans_nil _ _ _ _ _) (fun _ => hn) h1) h2
      exact same _ _ hs (le_refl _) rfl h3 (by omega)
  case scanAgain i j r h1 =>
    cases hv with
    | scan h =>
      exact same _ _ hs (le_refl _) rfl (.rescan h (scan_ok hs _ (fun e he => List.mem_reverse.1 he) (ans_nil _ _ _ _ _) h1)) (le_refl _)
  case scanDone i j r h1 h2 =>
    cases hv with
    | scan h =>
      obtain ⟨h3, h4⟩ := found_ok (n := s.tokens.accounts.length) h
        (scan_ok hs _ (fun e he => List.mem_reverse.1 he) (ans_nil _ _ _ _ _) h1) h2
      exact same _ _ hs (le_refl _) rfl h3 (by omega)
  case rescan i ret j r h1 h2 =>
    cases hv with
    | rescan h h' =>
      obtain ⟨h3, h4⟩ := found_ok (n := s.tokens.accounts.length) h (confirmed_ok hs h' (by simp) h1) h2
      exact same _ _ hs (le_refl _) rfl h3 (by omega)
  case finMultisig pk m hm =>
    cases hv with | finMultisig => exact same _ _ hs (le_refl _) rfl (.finMultisigSlot (hs.multisigs _ _ hm)) (le_refl _)
  case finMultisigN pk hm =>
    cases hv with | finMultisig => exact same _ _ hs (le_refl _) rfl .finIndex (le_refl _)
  case finMultisigSlot pk m r hr =>
    cases hv with
    | finMultisigSlot h =>
      obtain ⟨b, h1, h2, h3, h4, -⟩ := multisig_back h s.finalizedSlot 0
      rw [hr] at h1
      simp only [Run.ok.injEq] at h1
      subst h1
      exact same _ _ hs (le_refl _) rfl (fun b hb => by cases hb; exact ⟨h3, .inl ⟨h2, h4 ▸ hs.slots.finalized⟩⟩) (le_refl _)
  case finIndex pk i hi =>
    cases hv with | finIndex => exact same _ _ hs (le_refl _) rfl (.finMint (hs.table.index _ _ hi)) (le_refl _)
  case finIndexN pk hi =>
    cases hv with | finIndex => exact same _ _ hs (le_refl _) rfl .finBucket (le_refl _)
  case finMint pk i m hi =>
    cases hv with
    | finMint h =>
      obtain ⟨h1, h2⟩ := hs.mints _ _ (AMap.mem_of_find hi)
      exact same _ _ hs (le_refl _) rfl (.finMintSlot h2 (h1.unique hg h)) (le_refl _)
  case finMintSlot pk i m =>
    cases hv with
    | finMintSlot h h' => exact same _ _ hs (le_refl _) rfl (fun b hb => by cases hb; exact ⟨h', .inl ⟨mint_back h _ _, hs.slots.finalized⟩⟩) (le_refl _)
  case finBucket pk is hi => cases hv with | finBucket => exact same _ _ hs (le_refl _) rfl .finAccounts (le_refl _)
  case finBucketN pk hi => cases hv with | finBucket => exact same _ _ hs (le_refl _) rfl (fun b hb => by cases hb) (le_refl _)
  case finAccounts pk t h1 h2 =>
    cases hv with
    | finAccounts =>
      obtain ⟨o, h3, h4⟩ := getByPubkey_ok hs pk
      rw [h1] at h3
      simp only [Run.ok.injEq] at h3
      subst h3
      obtain ⟨h5, h6⟩ := h4 t rfl
      rcases h6 with rfl | h6
      · simp [TokenStorage.tombstone] at h2
      · exact same _ _ hs (le_refl _) rfl (.finSlot h6 h5) (le_refl _)
  case finAccountsN pk => cases hv with | finAccounts => exact same _ _ hs (le_refl _) rfl (fun b hb => by cases hb) (le_refl _)
  case finSlot t =>
    cases hv with
    | finSlot h h' =>
      refine same _ _ hs (le_refl _) rfl (.convert trivial (fun x hx => ?_) (by simp)) (le_refl _)
      simp only [List.mem_singleton] at hx
      subst hx
      exact ⟨.inl ⟨h, hs.slots.finalized⟩, h'⟩
  case gpaErr p fs c e he =>
    cases hv with
    | gpaStart =>
      refine same _ _ hs (le_refl _) rfl ?_ (le_refl _)
      rcases he with ⟨h1, h2, rfl⟩ | ⟨h1, rfl, h2⟩
      · exact ⟨not_answerable (.inl ⟨h1, h2⟩), ⟨fun _ => ⟨h1, h2⟩, fun _ => rfl⟩, .inl rfl⟩
      · exact ⟨not_answerable (.inr h2), ⟨fun h => by simp at h, fun h => by rcases h1 with h1 | h1 <;> simp [h1] at h⟩, .inr rfl⟩
  case gpaOwner p fs c owner mint hp hf =>
    cases hv with
    | gpaStart => exact same _ _ hs (le_refl _) rfl (.gpaOwner hs.slots.finalized (answerable hp (.inr (by simp [hf]))) hf) (le_refl _)
  case gpaMint p fs c mint hp hf =>
    cases hv with
    | gpaStart => exact same _ _ hs (le_refl _) rfl (.gpaMint hs.slots.finalized (answerable hp (.inr (by simp [hf]))) hf) (le_refl _)
  case gpaMints p fs c hp hf hd =>
    cases hv with
    | gpaStart => exact same _ _ hs (le_refl _) rfl (.gpaMints hs.slots.finalized (answerable hp (.inl hd)) hf (by simp)) (le_refl _)
  case owner q slot owner mint =>
    cases hv with | gpaOwner h0 h h' => exact same _ _ hs (le_refl _) rfl (.gpaIndex h0 h h') (le_refl _)
  case indexMint q slot owner mint is i hi =>
    cases hv with
    | gpaIndex h0 h h' =>
      exact same _ _ hs (le_refl _) rfl (.gpaGet h0 h h' fun pk hp => by cases hp; exact ⟨i, rfl, hs.table.index _ _ hi⟩) (le_refl _)
  case index q slot owner is =>
    cases hv with
    | gpaIndex h0 h h' => exact same _ _ hs (le_refl _) rfl (.gpaGet h0 h h' fun pk hp => by cases hp) (le_refl _)
  case indexNone q slot owner mint =>
    cases hv with
    | gpaIndex h0 h h' => exact same _ _ hs (le_refl _) rfl (.convert ⟨rfl, rfl, rfl, h⟩ (by simp) (by simp)) (le_refl _)
  case get q slot owner mint is ts hts =>
    cases hv with
    | @gpaGet p fs c _ _ mi _ _ h0 h h' h'' =>
      refine same _ _ hs (le_refl _) rfl (.convert ⟨rfl, rfl, rfl, h⟩ (fun x hx => ?_) (by simp)) (le_refl _)
      simp only [tokenItems, List.mem_map, List.mem_filter] at hx
      obtain ⟨t, ⟨ht, hw⟩, rfl⟩ := hx
      obtain ⟨ts', h1, h2⟩ := getByIndex_ok hs (σ.set is)
      rw [hts] at h1
      simp only [Run.ok.injEq] at h1
      subst h1
      refine ⟨h0, t, rfl, (h2 t ht).imp (fun e => by rw [e]; rfl) fun hf => ⟨hf, fun fl o hfl ho => ?_⟩⟩
      simp only [Option.some.injEq] at hfl
      subst hfl
      have ho := ((ownerMint_iff p fs).1 o).2 ho
      rw [h'] at ho
      simp only [Option.some.injEq] at ho
      subst ho
      refine ⟨?_, fun pk hpk => ?_⟩
      · cases mint with
        | none => simpa using hw
        | some i => simp at hw; exact hw.2
      · have hpk := ((ownerMint_iff p fs).2 pk).2 hpk
        rw [h'] at hpk
        obtain ⟨i, rfl, h3⟩ := h'' pk hpk
        simp at hw
        rw [hw.1]
        exact h3
  case mint q slot mint i hi =>
    cases hv with | gpaMint h0 h h' => exact same _ _ hs (le_refl _) rfl (.gpaByMint h0 h h') (le_refl _)
  case mintNone q slot mint hi =>
    cases hv with
    | gpaMint h0 h h' => exact same _ _ hs (le_refl _) rfl (.convert ⟨rfl, rfl, rfl, h⟩ (by simp) (by simp)) (le_refl _)
  case byMint q slot mint i is hi =>
    cases hv with | gpaByMint h0 h h' => exact same _ _ hs (le_refl _) rfl (.gpaMintGet h0 h h') (le_refl _)
  case byMintNone q slot mint i hi =>
    cases hv with
    | gpaByMint h0 h h' => exact same _ _ hs (le_refl _) rfl (.convert ⟨rfl, rfl, rfl, h⟩ (by simp) (by simp)) (le_refl _)
  case mintGet q slot mint i is ts hts =>
    cases hv with
    | gpaMintGet h0 h h' =>
      refine same _ _ hs (le_refl _) rfl (.convert ⟨rfl, rfl, rfl, h⟩ (fun x hx => ?_) (by simp)) (le_refl _)
      simp only [tokenItems, List.mem_map] at hx
      obtain ⟨t, ht, rfl⟩ := hx
      obtain ⟨ts', h1, h2⟩ := getByIndex_ok hs (σ.set is)
      rw [hts] at h1
      simp only [Run.ok.injEq] at h1
      subst h1
      refine ⟨h0, t, rfl, (h2 t ht).imp (fun e => by rw [e]; rfl) fun hf => ⟨hf, fun fl o hfl ho => ?_⟩⟩
      simp only [Option.some.injEq] at hfl
      subst hfl
      exact absurd ho (noOwner h' o)
  case mintsEnd q slot out =>
    cases hv with
    | gpaMints h0 h h' h'' =>
      refine same _ _ hs (le_refl _) rfl (.convert ⟨rfl, rfl, rfl, h⟩ (fun x hx => ?_) (by simp)) (le_refl _)
      simp only [List.mem_map] at hx
      obtain ⟨b, hb, rfl⟩ := hx
      refine ⟨h'' b hb, fun fl o hfl ho => ?_⟩
      simp only [Option.some.injEq] at hfl
      subst hfl
      exact absurd ho (noOwner h' o)
  case mints q slot n shards out l hl =>
    cases hv with
    | gpaMints h0 h h' h'' =>
      refine same _ _ hs (le_refl _) rfl (.gpaMints h0 h h' fun b hb => ?_) (le_refl _)
      rcases List.mem_append.1 hb with hb | hb
      · exact h'' b hb
      · have := mem_filterRun hl b hb
        simp only [List.mem_map, List.mem_filter] at this
        obtain ⟨⟨i, m⟩, ⟨hm, -⟩, rfl⟩ := this
        exact ⟨mint_back (hs.mints _ _ hm).2 _ _, h0⟩
  case convertEnd out j =>
    cases hv with
    | convert h h' h'' => exact same _ _ hs (le_refl _) rfl (job_ok h h'').1 (job_ok (n := 0) h h'').2
  case keep a l out j =>
    cases hv with
    | convert h h' h'' =>
      refine same _ _ hs (le_refl _) rfl (.convert h (fun x hx => h' x (by simp [hx])) fun b hb => ?_) (by
        cases j <;> exact le_refl _)
      rcases List.mem_append.1 hb with hb | hb
      · exact h'' b hb
      · simp only [List.mem_singleton] at hb
        subst hb
        have := h' (.keep b) (by simp)
        cases k <;> cases j <;> exact this
  case conv x slot wv l out j r hr =>
    cases hv with
    | convert h h' h'' =>
      refine same _ _ hs (le_refl _) rfl (.convert h (fun x hx => h' x (by simp [hx])) fun b hb => ?_) (by
        cases j <;> exact le_refl _)
      rcases List.mem_append.1 hb with hb | hb
      · exact h'' b hb
      · exact conv_ok hg hs (h' _ (by simp)) hr b hb
  case psProcessed info =>
    cases hv with
    | psStart hc =>
      obtain ⟨h1, h2⟩ := slotInfo_ok hs ⟨_, _, hc.choose_spec⟩
      exact same _ _ h1 (le_refl _) h2 ⟨by simp, by simp⟩ (le_refl _)
  case psConfirm info hlt => cases hv with | psStart hc => exact same _ _ hs (le_refl _) rfl (.psConfirm hc) (le_refl _)
  case psNoConfirm info hlt => cases hv with | psStart hc => exact same _ _ hs (le_refl _) rfl (.psReport hc) (le_refl _)
  case psFinal info hlt => cases hv with | psStart hc => exact same _ _ hs (le_refl _) rfl (.psUpdate hc (by simp)) (le_refl _)
  case psNoFinal info hlt => cases hv with | psStart hc => exact same _ _ hs (le_refl _) rfl (.psFinalize hc) (le_refl _)
  case confirm info =>
    cases hv with
    | psConfirm hc =>
      refine same _ _ ?_ (le_refl _) rfl (.psUpdate hc (by simp)) (le_refl _)
      exact ⟨hs.tokens, hs.buckets, hs.table, hs.mints, hs.multisigs, hs.proc, hs.procFrom, .inr ⟨_, info, hc.choose_spec, rfl⟩,
        hs.slots.finalized, hs.slots.parents⟩
  case updateFinal info =>
    cases hv with
    | psUpdate hc' h =>
      obtain ⟨h1, h2⟩ := slotInfo_ok hs ⟨_, _, hc'.choose_spec⟩
      exact same _ _ h1 (le_refl _) h2 (.psFinal hc') (le_refl _)
  case update info c hc =>
    cases hv with
    | psUpdate hc' h =>
      obtain ⟨h1, h2⟩ := slotInfo_ok hs ⟨_, _, hc'.choose_spec⟩
      have : c = .confirmed := by cases c <;> simp_all
      subst this
      exact same _ _ h1 (le_refl _) h2 (.psReport hc') (le_refl _)
  case final info =>
    cases hv with
    | psFinal hc =>
      refine same _ _ ?_ (le_refl _) rfl (.psFinalize hc) (le_refl _)
      exact ⟨hs.tokens, hs.buckets, hs.table, hs.mints, hs.multisigs, hs.proc, hs.procFrom, hs.slots.confirmed,
        .inr ⟨_, info, hc.choose_spec, rfl⟩, hs.slots.parents⟩
  case report info e he =>
    cases hv with
    | psReport hc =>
      refine same _ _ hs (le_refl _) rfl (.convert rfl (fun x hx => ?_) (by simp)) (le_refl _)
      simp only [List.mem_map] at hx
      obtain ⟨⟨pk, y⟩, hy, rfl⟩ := hx
      exact ⟨hs.procFrom _ _ _ _ he (AMap.find_of_mem (hs.proc.distinct _ _ he) hy), rfl⟩
  case reportNone info hf => cases hv with | psReport hc => exact same _ _ hs (le_refl _) rfl (.psMissing hc) (le_refl _)
  case missing info =>
    cases hv with
    | psMissing hc =>
      obtain ⟨h1, h2⟩ := slotInfo_ok hs ⟨_, _, hc.choose_spec⟩
      exact same _ _ h1 (le_refl _) h2 ⟨by simp, by simp⟩ (le_refl _)
  case finalize info P l hf =>
    cases hv with
    | psFinalize hc =>
      obtain ⟨P', l', h1, h2, h3, h4⟩ := finalize_ok hs info.slot
      rw [hf] at h1
      simp only [Run.ok.injEq, Prod.mk.injEq] at h1
      obtain ⟨rfl, rfl⟩ := h1
      have hx : ∀ x ∈ σ.final l, From E.codecs g (NotedAt log x.2 x.1.wv) x.1.account ∧ Up log info.slot x.2 := fun x hx =>
        h4 x.1 x.2 ((σ.final_perm l).mem_iff.1 hx)
      refine ⟨g, List.prefix_refl _, h2, le_refl _, .convert ⟨rfl, fun x hm => (hx x hm).1.mono (List.prefix_refl _) fun a ha =>
        .inr ⟨ha.1, info.slot, ⟨_, info, hc.choose_spec, rfl⟩, ha.2.1 ▸ (hx x hm).2⟩⟩ (fun x hm => ?_) (by simp), ?_⟩
      · simp only [List.mem_map] at hm
        obtain ⟨y, hy, rfl⟩ := hm
        exact hx y hy
      · simp only [Next.weight, Pc.weight, (σ.final_perm l).length_eq]
        omega

end LAM.TokConc
