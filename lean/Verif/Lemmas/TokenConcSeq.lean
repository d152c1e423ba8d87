import Verif.Lemmas.TokenConc
/-!
# Concurrent calls of the token program store: what is left of a call, done at once
-/
namespace LAM.TokConc
open Token Run ProcStore
open Spl (tokenId token2022Id)

/-- The accounts, converted with these mints. -/
def convAll (mints : AMap Nat MintAccount) : List Item → Run (List AccountData)
  | [] => .ok []
  | .keep a :: l => do return a :: (← convAll mints l)
  | .conv x slot wv :: l => do
    let r ← x.toSolana mints slot wv
    return r.toList ++ (← convAll mints l)

/-- The rest of a submission that was taken. -/
def restTaken (X : Codecs) (a : AccountData) (c : Option Commitment) (s : TokenStore) : Run (TokenStore × Reply) := do
  let (x, table) ← Token.classify X s.table a
  let s := { s with table := table }
  match x with
  | none => return (s, .updated false)
  | some x =>
    if c = some .processed ∨ c = some .confirmed then
      let (b, P) := s.processed.insertAccount a.pubkey x a.wv a.slot
      return ({ s with processed := P }, .updated b)
    else do return (← s.addFinalized x, .updated true)

/-- The rest after an account was stored. -/
def restAfter (k : After) (s : TokenStore) : Run (TokenStore × Reply) := do
  return (← TokenStore.addAll k.todo s, k.reply)

/-- The rest after the unfinalized states were looked up. -/
def restScan (r : Answers) (s : TokenStore) : Scan → Run (TokenStore × Reply)
  | .one pk => do
    match ← Run.unwrap r.head? with
    | some (x, slot) => return (s, .account (← x.account.toSolana s.mints slot 0))
    | none => return (s, .account (← s.getFinalized pk))
  | .overlay l => do return (s, .accounts (.ok (← TokenStore.overlay s.mints l r)))

/-- The rest after the accounts were converted. -/
def restJob (out : List AccountData) (s : TokenStore) : Job → Run (TokenStore × Reply)
  | .one => .ok (s, .account out.head?)
  | .found q _ =>
    if q.c = .finalized then .ok (s, .accounts (.ok out))
    else do restScan (← s.processed.getAccounts (out.map (·.pubkey)) q.c s.confirmedSlot) s (.overlay out)
  | .overlay => .ok (s, .accounts (.ok out))
  | .confirmed => .ok (s, .reported out)
  | .finalized l => restAfter ⟨l, .reported out⟩ s

/-- The rest after the accounts were found. -/
def restFound (q : Query) (s : TokenStore) (l : List Item) : Run (TokenStore × Reply) := do
  restJob (← convAll s.mints l) s (.found q none)

/-- Mints of a query. -/
def mintsOf (X : Codecs) (q : Query) (slot : Nat) (l : AMap Nat MintAccount) : Run (List AccountData) :=
  TokenStorage.filterRun (fun a => do
    let d ← a.account.data.data X
    Run.allM (fun f => f.allows X d) q.filters) (l.map (fun e => mintToSolana e.2 slot 0))

/-- The mints in the order of these shards. -/
def inShards (E : Env) (shards : List Nat) (m : AMap Nat MintAccount) : AMap Nat MintAccount :=
  shards.flatMap fun n => m.filter (fun e => E.mintsShard e.1 = n)

/-- The token accounts of an owner, of a mint. -/
def restOwner (σ : Orders) (q : Query) (slot : Nat) (owner : Pubkey) (mint : Option Nat) (is : List Nat) (s : TokenStore) :
    Run (TokenStore × Reply) := do
  let ts ← s.tokens.getByIndex (σ.set is)
  let ts := ts.filter (fun t => match mint with
    | some i => t.mint = i && t.owner = owner
    | none => t.owner = owner)
  restFound q s (tokenItems slot ts)

def restIndex (σ : Orders) (q : Query) (slot : Nat) (owner : Pubkey) (mint : Option Pubkey) (is : Option (List Nat))
    (s : TokenStore) : Run (TokenStore × Reply) := do
  let mint ← (match mint with
    | some pk => do return some (← Run.unwrap (s.table.index.find pk))
    | none => (return none : Run (Option Nat)))
  match is with
  | some is => restOwner σ q slot owner mint is s
  | none => restFound q s []

def restMint (σ : Orders) (q : Query) (slot : Nat) (is : List Nat) (s : TokenStore) : Run (TokenStore × Reply) := do
  let ts ← s.tokens.getByIndex (σ.set is)
  restFound q s (tokenItems slot ts)

def restByMint (σ : Orders) (q : Query) (slot : Nat) (i : Nat) (s : TokenStore) : Run (TokenStore × Reply) :=
  match s.byMint.find i with
  | some is => restMint σ q slot is s
  | none => restFound q s []

/-- The rest of a finalized notification. -/
def restFinalize (σ : Orders) (info : SlotInfo) (s : TokenStore) : Run (TokenStore × Reply) := do
  let (P, l) ← s.processed.finalize info.slot
  let l := σ.final l
  let s := { s with processed := P }
  let out ← toSolanaAll s.mints l
  return (← TokenStore.addAll l s, .reported out)

/-- The rest of a confirmed notification. -/
def restReport (info : SlotInfo) (s : TokenStore) : Run (TokenStore × Reply) := do
  let (l, P) ← s.processed.getProcessedForSlot info s.mints
  return ({ s with processed := P }, .reported l)

/-- What a call gives from here on if it is executed at once. -/
def rest (E : Env) (σ : Orders) (s : TokenStore) : Pc → Run (TokenStore × Reply)
  | .idle => .diverge
  | .loops _ => .diverge
  | .chkIndex a c => do if !(← s.isTokenAccount a) then return (s, .updated false) else restTaken E.codecs a c s
  | .chkMultisig a c =>
    if (s.multisigs.find a.pubkey).isSome ∨ a.account.owner = tokenId ∨ a.account.owner = token2022Id then restTaken E.codecs a c s
    else do if (← s.tokens.contains a.pubkey).isSome then restTaken E.codecs a c s else return (s, .updated false)
  | .chkBucket a c => do if (← s.tokens.contains a.pubkey).isSome then restTaken E.codecs a c s else return (s, .updated false)
  | .chkAccounts a c => do if (← s.tokens.contains a.pubkey).isSome then restTaken E.codecs a c s else return (s, .updated false)
  | .classify a c => restTaken E.codecs a c s
  | .insert a x =>
    let (b, P) := s.processed.insertAccount a.pubkey x a.wv a.slot
    .ok ({ s with processed := P }, .updated b)
  | .add x k => do restAfter k (← s.addFinalized x)
  | .save t k => do restAfter k (← s.addFinalized (.token t))
  | .pushMint t i k => restAfter k { s with byMint := TokenStore.push s.byMint t.mint i, byOwner := TokenStore.push s.byOwner (prefix4 t.owner) i }
  | .pushOwner t i k => restAfter k { s with byOwner := TokenStore.push s.byOwner (prefix4 t.owner) i }
  | .putMint m i new k => restAfter k { s with
      mints := s.mints.insert i m
      table := if new then { s.table with index := s.table.index.insert m.pubkey i } else s.table }
  | .eraseMint i k => restAfter k { s with mints := s.mints.erase i, byMint := s.byMint.erase i }
  | .eraseByMint i k => restAfter k { s with byMint := s.byMint.erase i }
  | .again pk k =>
    match s.table.index.find pk with
    | some _ => restAfter k { s with table := { s.table with index := s.table.index.erase pk } }
    | none => do restAfter k { s with tokens := ← s.tokens.delete pk }
  | .dropBucket pk k => do restAfter k { s with tokens := ← s.tokens.delete pk }
  | .entomb pk is k => do
    match ← firstMatch s.tokens.accounts pk is with
    | some i => restAfter k { s with tokens := { s.tokens with accounts := s.tokens.accounts.set i TokenStorage.tombstone.toBytes } }
    | none => restAfter k s
  | .scanSlot c j => do restScan (← s.processed.getAccounts j.keys c s.confirmedSlot) s j
  | .scan c n j => do restScan (← s.processed.getAccounts j.keys c n) s j
  | .rescan n ret j => do restScan (← getConfirmed (s.processed.length + 1) s.processed j.keys ret n) s j
  | .finMultisig pk => do return (s, .account (← s.getFinalized pk))
  | .finMultisigSlot pk m => do return (s, .account (some (← multisigToSolana m pk s.finalizedSlot 0)))
  | .finIndex pk =>
    match s.table.index.find pk with
    | some i => do return (s, .account (some (mintToSolana (← Run.unwrap (s.mints.find i)) s.finalizedSlot 0)))
    | none => do
      match ← s.tokens.getByPubkey pk with
      | some t => return (s, .account (← tokenToSolana s.mints t s.finalizedSlot 0))
      | none => return (s, .account none)
  | .finMint _ i => do return (s, .account (some (mintToSolana (← Run.unwrap (s.mints.find i)) s.finalizedSlot 0)))
  | .finMintSlot _ _ m => .ok (s, .account (some (mintToSolana m s.finalizedSlot 0)))
  | .finBucket pk => do
    match ← s.tokens.getByPubkey pk with
    | some t => return (s, .account (← tokenToSolana s.mints t s.finalizedSlot 0))
    | none => return (s, .account none)
  | .finAccounts pk => do
    match ← s.tokens.getByPubkey pk with
    | some t => return (s, .account (← tokenToSolana s.mints t s.finalizedSlot 0))
    | none => return (s, .account none)
  | .finSlot t => do return (s, .account (← tokenToSolana s.mints t s.finalizedSlot 0))
  | .gpaStart program fs c =>
    if program ≠ tokenId ∧ program ≠ token2022Id then .ok (s, .accounts (.error .wrongIndex))
    else match fs with
    | none => .ok (s, .accounts (.error .shouldContainAnAccountFilter))
    | some fs =>
      let q : Query := ⟨program, fs, c⟩
      match ownerMintFilter program fs with
      | (some owner, mint) => restIndex σ q s.finalizedSlot owner mint (s.byOwner.find (prefix4 owner)) s
      | (none, some mint) =>
        match s.table.index.find mint with
        | some i => restByMint σ q s.finalizedSlot i s
        | none => restFound q s []
      | (none, none) =>
        if fs.contains (.datasize 82) then do
          restJob (← mintsOf E.codecs q s.finalizedSlot (inShards E (List.range E.mintsShards) s.mints)) s (.found q none)
        else .ok (s, .accounts (.error .shouldContainAnAccountFilter))
  | .gpaOwner q slot owner mint => restIndex σ q slot owner mint (s.byOwner.find (prefix4 owner)) s
  | .gpaIndex q slot owner mint is => restIndex σ q slot owner mint is s
  | .gpaGet q slot owner mint is => restOwner σ q slot owner mint is s
  | .gpaMint q slot mint =>
    match s.table.index.find mint with
    | some i => restByMint σ q slot i s
    | none => restFound q s []
  | .gpaByMint q slot _ i => restByMint σ q slot i s
  | .gpaMintGet q slot _ _ is => restMint σ q slot is s
  | .gpaMints q slot shards out => do
    restJob (out ++ (← mintsOf E.codecs q slot (inShards E shards s.mints))) s (.found q none)
  | .convert l out j => do restJob (out ++ (← convAll s.mints l)) s j
  | .psStart info .processed => .ok ({ s with processed := s.processed.updateSlotInfo info }, .reported [])
  | .psStart info .confirmed => restReport info (if s.confirmedSlot < info.slot then
        { s with confirmedSlot := info.slot, processed := s.processed.updateSlotInfo info } else s)
  | .psStart info .finalized => restFinalize σ info (if s.finalizedSlot < info.slot then
        { s with finalizedSlot := info.slot, processed := s.processed.updateSlotInfo info } else s)
  | .psConfirm info => restReport info { s with confirmedSlot := info.slot, processed := s.processed.updateSlotInfo info }
  | .psUpdate info c =>
    if c = .finalized then restFinalize σ info { s with finalizedSlot := info.slot, processed := s.processed.updateSlotInfo info }
    else restReport info { s with processed := s.processed.updateSlotInfo info }
  | .psFinal info => restFinalize σ info { s with finalizedSlot := info.slot }
  | .psFinalize info => restFinalize σ info s
  | .psReport info => restReport info s
  | .psMissing info => .ok ({ s with processed := s.processed.updateSlotInfo info }, .reported [])

/-- The rest after a step. -/
def restNext (E : Env) (σ : Orders) : TokenStore × Next → Run (TokenStore × Reply)
  | (s, .go p) => rest E σ s p
  | (s, .ret r) => .ok (s, r)

theorem assoc {α β γ : Type} (x : Run α) (f : α → Run β) (g : β → Run γ) : (x >>= f) >>= g = x >>= fun a => f a >>= g := by
  cases x <;> rfl

theorem rest_after (E : Env) (σ : Orders) (k : After) (s : TokenStore) : restNext E σ (s, k.next) = restAfter k s := by
  obtain ⟨_ | ⟨x, l⟩, r⟩ := k
  · simp [After.next, restNext, restAfter, TokenStore.addAll]
  · simp [After.next, restNext, restAfter, rest, TokenStore.addAll, assoc]

theorem convAll_one (mints : AMap Nat MintAccount) (x : ProgramAccount) (slot wv : Nat) :
    convAll mints [.conv x slot wv] = (do return (← x.toSolana mints slot wv).toList) := by
  simp [convAll]

theorem head_toList {α : Type} (o : Option α) : o.toList.head? = o := by cases o <;> rfl

theorem convAll_keep (mints : AMap Nat MintAccount) (l : List AccountData) : convAll mints (l.map .keep) = .ok l := by
  induction l with
  | nil => rfl
  | cons a l ih => simp [convAll, ih]

theorem convAll_overlay (mints : AMap Nat MintAccount) (l : List AccountData) (r : Answers) :
    convAll mints (overlayItems l r) = TokenStore.overlay mints l r := by
  induction l generalizing r with
  | nil => cases r <;> simp [overlayItems, TokenStore.overlay, convAll]
  | cons a l ih =>
    rcases r with _ | ⟨_ | ⟨x, slot⟩, r⟩
    · simp only [overlayItems, TokenStore.overlay]
      exact convAll_keep mints (a :: l)
    · simp [overlayItems, TokenStore.overlay, convAll, ih]
    · simp [overlayItems, TokenStore.overlay, convAll, ih]

theorem rest_scan (E : Env) (σ : Orders) (r : Answers) (s : TokenStore) (j : Scan) :
    (do let n ← j.next r; restNext E σ (s, n)) = restScan r s j := by
  cases j with
  | one pk =>
    simp only [Scan.next, restScan, assoc]
    cases Run.unwrap r.head? with
    | ok o =>
      rcases o with _ | ⟨x, slot⟩
      · simp [restNext, rest]
      · simp [restNext, rest, convAll_one, restJob, assoc]
    | panic => rfl
    | diverge => rfl
  | overlay l => simp [Scan.next, restScan, restNext, rest, convAll_overlay, restJob]

theorem rest_job (E : Env) (σ : Orders) (out : List AccountData) (s : TokenStore) (j : Job) :
    restNext E σ (s, j.next out) = restJob out s j := by
  cases j with
  | found q mi =>
    simp only [Job.next, restJob]
    split
    · rfl
    · rfl
  | finalized l => exact rest_after E σ ⟨l, .reported out⟩ s
  | _ => rfl

theorem rest_taken (E : Env) (σ : Orders) (s : TokenStore) (a : AccountData) (c : Option Commitment) (b : Bool) :
    restNext E σ (s, taken a c b) = if b then restTaken E.codecs a c s else .ok (s, .updated false) := by
  cases b <;> rfl

theorem convAll_items (mints : AMap Nat MintAccount) (l : List (Processed × Nat)) :
    convAll mints (l.map (fun x => .conv x.1.account x.2 x.1.wv)) = toSolanaAll mints l := by
  induction l with
  | nil => rfl
  | cons x l ih => simp [convAll, toSolanaAll, ih]

theorem filterRun_append {α : Type} (f : α → Run Bool) (l l' : List α) : TokenStorage.filterRun f (l ++ l') = (do
    let a ← TokenStorage.filterRun f l
    return a ++ (← TokenStorage.filterRun f l')) := by
  induction l with
  | nil => simp only [List.nil_append, TokenStorage.filterRun, ok_bind, pure_eq]; cases TokenStorage.filterRun f l' <;> rfl
  | cons x l ih =>
    simp only [List.cons_append, TokenStorage.filterRun, ih, assoc, ok_bind, pure_eq]
    congr 1; funext b; congr 1; funext ys; congr 1; funext zs
    cases b <;> rfl

/-- **A step does not change what the call gives.** -/
theorem rest_step (E : Env) (σ : Orders) (s : TokenStore) (p : Pc) (ha : p.active) :
    (do let x ← p.exec E σ s; restNext E σ x) = rest E σ s p := by
  cases p with
  | idle => exact ha.elim
  | loops l => exact ha.elim
  | chkIndex a c =>
    simp only [Pc.exec, rest, TokenStore.isTokenAccount, ok_bind]
    by_cases h : (s.table.index.find a.pubkey).isSome = true
    · simp [h, rest_taken]
    · rw [if_neg h]
      simp only [restNext, rest]
      by_cases h' : (s.multisigs.find a.pubkey).isSome ∨ a.account.owner = tokenId ∨ a.account.owner = token2022Id
      · rw [if_pos h', if_pos (.inr h')]; rfl
      · rw [if_neg h', if_neg (not_or.2 ⟨h, h'⟩)]
        simp only [assoc, pure_eq, ok_bind]
        congr 1; funext o
        cases o <;> rfl
  | chkMultisig a c =>
    simp only [Pc.exec, rest, ok_bind]
    split
    · rfl
    · rfl
  | chkBucket a c =>
    simp only [Pc.exec, rest]
    cases h : s.tokens.buckets.find (prefix4 a.pubkey) with
    | none => simp [TokenStorage.contains, h, rest_taken]
    | some is =>
      by_cases h' : is.length > 1
      · simp [h', restNext, rest]
      · simp only [h', if_false, assoc, ok_bind, pure_eq]
        simp only [TokenStorage.contains, h, h', if_false, assoc, ok_bind, pure_eq]
        rfl
  | chkAccounts a c =>
    simp only [Pc.exec, rest, assoc, ok_bind, pure_eq, rest_taken]
  | classify a c =>
    simp only [Pc.exec, rest, restTaken, assoc, ok_bind, pure_eq]
    congr 1; funext ⟨x, T⟩
    cases x with
    | none => rfl
    | some x =>
      simp only [decoded]
      split
      · rfl
      · simp [restNext, rest, restAfter, TokenStore.addAll]
  | insert a x => rfl
  | add x k =>
    cases x with
    | token t => rfl
    | mint m =>
      simp only [Pc.exec, rest, TokenStore.addFinalized]
      cases s.table.index.find m.pubkey <;> rfl
    | multisig m pk => simp only [Pc.exec, rest, TokenStore.addFinalized, ok_bind, rest_after]
    | deleted pk =>
      simp only [Pc.exec, rest, TokenStore.addFinalized]
      cases h : s.table.index.find pk with
      | some i => rfl
      | none => simp only [ok_bind, restNext, rest, h, assoc, pure_eq]
  | save t k =>
    simp only [Pc.exec, rest, TokenStore.addFinalized, assoc, ok_bind, pure_eq]
    congr 1; funext ⟨⟨i, b⟩, T⟩
    cases b
    · simp [rest_after]
    · rfl
  | pushMint t i k => rfl
  | pushOwner t i k => simp only [Pc.exec, rest, ok_bind, rest_after]
  | putMint m i new k => simp only [Pc.exec, rest, ok_bind, rest_after]
  | eraseMint i k => rfl
  | eraseByMint i k => simp only [Pc.exec, rest, ok_bind, rest_after]
  | again pk k =>
    simp only [Pc.exec, rest]
    cases s.table.index.find pk with
    | some i => simp only [ok_bind, rest_after]
    | none => rfl
  | dropBucket pk k =>
    simp only [Pc.exec, rest, TokenStorage.delete]
    cases h : s.tokens.buckets.find (prefix4 pk) with
    | none => simp only [ok_bind, rest_after]
    | some is =>
      simp only [ok_bind, restNext, rest, assoc]
      congr 1; funext o
      cases o <;> rfl
  | entomb pk is k =>
    simp only [Pc.exec, rest, assoc]
    congr 1; funext o
    cases o <;> simp only [ok_bind, pure_eq, rest_after]
  | scanSlot c j => rfl
  | scan c n j =>
    cases c with
    | finalized => rfl
    | confirmed => simp only [Pc.exec, rest, assoc, ok_bind, pure_eq, rest_scan, getAccounts]
    | processed =>
      have key : ∀ (l : List (Nat × BySlot)) (ret : Answers), getProcessed s.processed j.keys n l ret =
          (match scanProcessed j.keys n l ret with
          | (r, true) => getConfirmed (s.processed.length + 1) s.processed j.keys r n
          | (r, false) => .ok r) := by
        intro l
        induction l with
        | nil => intro ret; rfl
        | cons x l ih =>
          intro ret
          obtain ⟨slot, e⟩ := x
          simp only [getProcessed, scanProcessed]
          split
          · split
            · rfl
            · exact ih _
          · rfl
      simp only [Pc.exec, rest, getAccounts, key]
      cases scanProcessed j.keys n s.processed.reverse (List.replicate j.keys.length none) with
      | mk r b =>
        cases b
        · simp only [assoc, ok_bind, pure_eq, rest_scan]
        · rfl
  | rescan n ret j => simp only [Pc.exec, rest, assoc, ok_bind, pure_eq, rest_scan]
  | finMultisig pk =>
    simp only [Pc.exec, rest, TokenStore.getFinalized]
    cases s.multisigs.find pk with
    | some m => simp only [ok_bind, restNext, rest, assoc, pure_eq]
    | none =>
      simp only [ok_bind, restNext, rest]
      cases s.table.index.find pk with
      | some i => simp only [assoc, ok_bind, pure_eq]
      | none =>
        simp only [assoc, pure_eq]
        congr 1; funext o
        cases o with
        | none => rfl
        | some t =>
          simp only
          split
          · rename_i h; simp [tokenToSolana, h]
          · rfl
  | finMultisigSlot pk m => simp only [Pc.exec, rest, assoc, ok_bind, pure_eq, restNext]
  | finIndex pk =>
    simp only [Pc.exec, rest]
    cases s.table.index.find pk <;> rfl
  | finMint pk i => simp only [Pc.exec, rest, assoc, ok_bind, pure_eq, restNext]
  | finMintSlot pk i m => rfl
  | finBucket pk =>
    simp only [Pc.exec, rest]
    cases h : s.tokens.buckets.find (prefix4 pk) with
    | none => simp [TokenStorage.getByPubkey, h, restNext]
    | some is => rfl
  | finAccounts pk =>
    simp only [Pc.exec, rest, assoc]
    congr 1; funext o
    cases o with
    | none => rfl
    | some t =>
      simp only [ok_bind, pure_eq]
      split
      · rename_i h; simp [tokenToSolana, h, restNext]
      · rfl
  | finSlot t =>
    simp only [Pc.exec, rest, ok_bind, restNext, convAll_one, assoc, pure_eq, List.nil_append, restJob, head_toList]
    rfl
  | gpaStart p fs c =>
    simp only [Pc.exec, rest]
    split
    · rfl
    · cases fs with
      | none => rfl
      | some fs =>
        simp only
        cases ownerMintFilter p fs with
        | mk o m =>
          cases o with
          | some o => rfl
          | none =>
            cases m with
            | some m => rfl
            | none =>
              simp only
              split
              · simp only [ok_bind, restNext, rest, List.nil_append]
              · rfl
  | gpaOwner q slot owner mint => rfl
  | gpaIndex q slot owner mint is =>
    simp only [Pc.exec, rest, restIndex, assoc]
    congr 1; funext m
    cases is with
    | some is => rfl
    | none => simp [restNext, rest, restFound, restJob, convAll]
  | gpaGet q slot owner mint is =>
    simp only [Pc.exec, rest, restOwner, assoc, ok_bind, pure_eq, restNext, restFound, List.nil_append]
    cases mint <;> rfl
  | gpaMint q slot mint =>
    simp only [Pc.exec, rest]
    cases s.table.index.find mint with
    | some i => rfl
    | none => simp [restNext, rest, restFound, restJob, convAll]
  | gpaByMint q slot mint i =>
    simp only [Pc.exec, rest, restByMint]
    cases s.byMint.find i with
    | some i => rfl
    | none => simp [restNext, rest, restFound, restJob, convAll]
  | gpaMintGet q slot mint i is =>
    simp only [Pc.exec, rest, restMint, assoc, ok_bind, pure_eq, restNext, restFound, List.nil_append, restJob]
  | gpaMints q slot shards out =>
    cases shards with
    | nil => simp [Pc.exec, rest, restNext, convAll_keep, inShards, mintsOf, TokenStorage.filterRun]
    | cons n shards =>
      simp only [Pc.exec, rest, inShards, mintsOf, List.flatMap_cons, List.map_append, filterRun_append, assoc, ok_bind, pure_eq,
        restNext, List.append_assoc]
  | convert l out j =>
    rcases l with _ | ⟨_ | ⟨x, slot, wv⟩, l⟩
    · simp [Pc.exec, rest, convAll, rest_job]
    · simp [Pc.exec, rest, convAll, restNext, assoc]
    · simp [Pc.exec, rest, convAll, restNext, assoc]
  | psStart info c =>
    cases c with
    | processed => rfl
    | confirmed => simp only [Pc.exec, rest, ok_bind]; split <;> rfl
    | finalized => simp only [Pc.exec, rest, ok_bind]; split <;> rfl
  | psConfirm info => rfl
  | psUpdate info c => simp only [Pc.exec, rest, ok_bind]; split <;> rfl
  | psFinal info => rfl
  | psReport info =>
    simp only [Pc.exec, rest, restReport, getProcessedForSlot]
    cases h : BMap.find s.processed info.slot with
    | none => rfl
    | some e =>
      have : ∀ l : AMap Pubkey Processed, convAll s.mints (l.map (fun x => .conv x.2.account info.slot x.2.wv)) =
          toSolanaAll s.mints (l.map (fun x => (x.2, info.slot))) := by
        intro l
        rw [← convAll_items, List.map_map]; rfl
      simp only [ok_bind, restNext, rest, this, List.nil_append, assoc, pure_eq, restJob]
  | psMissing info => rfl
  | psFinalize info =>
    simp only [Pc.exec, rest, restFinalize, assoc, ok_bind, pure_eq, restNext, convAll_items, List.nil_append, restJob, restAfter]

/-! ## The whole call -/

theorem initAccount_eq (X : Codecs) (s : TokenStore) (a : AccountData) :
    s.initAccount X a = (do return (← s.updateAccount X a .finalized).2) := by
  simp only [TokenStore.initAccount, TokenStore.updateAccount, assoc]
  congr 1; funext b
  split
  · rfl
  · simp only [assoc]
    congr 1; funext ⟨x, T⟩
    cases x with
    | none => rfl
    | some x => simp only [reduceCtorEq, or_self, if_false, assoc, ok_bind, pure_eq]; cases TokenStore.addFinalized _ x <;> rfl

theorem rest_submit (E : Env) (σ : Orders) (s : TokenStore) (a : AccountData) (c : Commitment) :
    rest E σ s (.chkIndex a (some c)) = (do let r ← s.updateAccount E.codecs a c; return (r.2, .updated r.1)) := by
  simp only [rest, TokenStore.updateAccount, assoc]
  congr 1; funext b
  cases b
  · rfl
  · simp only [Bool.not_true, Bool.false_eq_true, if_false, restTaken, assoc]
    congr 1; funext ⟨x, T⟩
    cases x with
    | none => rfl
    | some x =>
      simp only [Option.some.injEq]
      split
      · rfl
      · simp [assoc]

theorem rest_init (E : Env) (σ : Orders) (s : TokenStore) (a : AccountData) :
    rest E σ s (.chkIndex a none) = (do let r ← s.updateAccount E.codecs a .finalized; return (r.2, .updated r.1)) := by
  rw [← rest_submit E σ s a .finalized]
  simp only [rest, restTaken, reduceCtorEq, or_self, if_false, Option.some.injEq]

theorem bind_dup {α β : Type} (x : Run α) (f : α → α → Run β) : (do let a ← x; let b ← x; f a b) = (do let a ← x; f a a) := by
  cases x <;> rfl

/-- **A writing call executed at once** is an operation of the store. -/
theorem rest_write (E : Env) (σ : Orders) (s : TokenStore) (k : Call) (hk : k.modifies = true) :
    ∃ op, opCall op = k ∧ rest E σ s k.start = opResult E.codecs s op := by
  cases k with
  | submit a c =>
    cases c with
    | some c => exact ⟨.update a c, rfl, rest_submit E σ s a c⟩
    | none =>
      refine ⟨.init a, rfl, (rest_init E σ s a).trans ?_⟩
      simp only [opResult, initAccount_eq, assoc, ok_bind, pure_eq]
      exact (bind_dup (s.updateAccount E.codecs a .finalized) fun a b => .ok (a.2, Reply.updated b.1)).symm
  | process info c =>
    refine ⟨.slot σ info c, rfl, ?_⟩
    cases c with
    | processed => rfl
    | confirmed =>
      simp only [Call.start, rest, opResult, TokenStore.processSlot, restReport, assoc, ok_bind, pure_eq]
    | finalized =>
      simp only [Call.start, rest, opResult, TokenStore.processSlot, restFinalize, assoc, ok_bind, pure_eq]
  | get pk c => cases hk
  | gpa p fs c => cases hk

/-! ## Order of the mints -/

theorem tokenToSolana_congr {m m' : AMap Nat MintAccount} (h : ∀ i, m'.find i = m.find i) (t : TokenAccount) (slot wv : Nat) :
    tokenToSolana m' t slot wv = tokenToSolana m t slot wv := by
  simp only [tokenToSolana, h]

theorem toSolana_congr {m m' : AMap Nat MintAccount} (h : ∀ i, m'.find i = m.find i) (x : ProgramAccount) (slot wv : Nat) :
    x.toSolana m' slot wv = x.toSolana m slot wv := by
  cases x <;> simp only [ProgramAccount.toSolana, tokenToSolana_congr h]

theorem convAll_congr {m m' : AMap Nat MintAccount} (h : ∀ i, m'.find i = m.find i) (l : List Item) : convAll m' l = convAll m l := by
  induction l with
  | nil => rfl
  | cons x l ih => cases x <;> simp only [convAll, ih, toSolana_congr h]

theorem overlay_congr {m m' : AMap Nat MintAccount} (h : ∀ i, m'.find i = m.find i) (l : List AccountData) (r : Answers) :
    TokenStore.overlay m' l r = TokenStore.overlay m l r := by
  rw [← convAll_overlay, ← convAll_overlay, convAll_congr h]

theorem convAll_tokens (m : AMap Nat MintAccount) (slot : Nat) (l : List TokenAccount) :
    convAll m (tokenItems slot l) = TokenStore.tokensToSolana m slot l := by
  induction l with
  | nil => rfl
  | cons t l ih => simp only [tokenItems, List.map_cons, convAll, TokenStore.tokensToSolana, ← ih, ProgramAccount.toSolana]

theorem tokens_congr {m m' : AMap Nat MintAccount} (h : ∀ i, m'.find i = m.find i) (slot : Nat) (l : List TokenAccount) :
    TokenStore.tokensToSolana m' slot l = TokenStore.tokensToSolana m slot l := by
  rw [← convAll_tokens, ← convAll_tokens, convAll_congr h]

theorem find_append {K V : Type} [DecidableEq K] (l l' : AMap K V) (k : K) : AMap.find (l ++ l') k = (AMap.find l k).or (AMap.find l' k) := by
  induction l with
  | nil => simp
  | cons x l ih =>
    obtain ⟨a, b⟩ := x
    simp only [List.cons_append, AMap.find]
    split
    · rfl
    · exact ih

theorem find_filter {K V : Type} [DecidableEq K] (l : AMap K V) (f : K → Bool) (k : K) :
    AMap.find (l.filter fun e => f e.1) k = if f k then AMap.find l k else none := by
  induction l with
  | nil => simp
  | cons x l ih =>
    obtain ⟨a, b⟩ := x
    simp only [List.filter_cons, AMap.find]
    by_cases h : a = k
    · subst h
      cases hf : f a
      · simpa [hf] using ih
      · simp [AMap.find]
    · cases hf : f a
      · simpa [h] using ih
      · simpa [h, AMap.find] using ih

theorem find_inShards (E : Env) (m : AMap Nat MintAccount) (i : Nat) (shards : List Nat) :
    (inShards E shards m).find i = if E.mintsShard i ∈ shards then m.find i else none := by
  induction shards with
  | nil => simp [inShards]
  | cons n shards ih =>
    have ih' : AMap.find (List.flatMap (fun n => List.filter (fun e => decide (E.mintsShard e.1 = n)) m) shards) i =
      if E.mintsShard i ∈ shards then m.find i else none := ih
    simp only [inShards, List.flatMap_cons, find_append, find_filter m (fun k => decide (E.mintsShard k = n)), ih', decide_eq_true_eq,
      List.mem_cons]
    by_cases h : E.mintsShard i = n
    · simp only [h, if_true, true_or]
      cases m.find i <;> simp
    · simp [h]

theorem inShards_perm (E : Env) (m : AMap Nat MintAccount) : (inShards E (List.range E.mintsShards) m).Perm m := by
  have key : ∀ n, (inShards E (List.range n) m).Perm (m.filter fun e => decide (E.mintsShard e.1 < n)) := by
    intro n
    induction n with
    | zero => simp [inShards]
    | succ n ih =>
      have h := List.filter_append_perm (fun e => decide (E.mintsShard e.1 < n)) (m.filter fun e => decide (E.mintsShard e.1 < n + 1))
      rw [List.filter_filter, List.filter_filter] at h
      refine List.Perm.trans ?_ h
      rw [List.range_succ]
      simp only [inShards, List.flatMap_append, List.flatMap_cons, List.flatMap_nil, List.append_nil]
      refine List.Perm.append (ih.trans (.of_eq ?_)) (.of_eq ?_)
      · exact List.filter_congr fun e _ => by rw [Bool.eq_iff_iff]; simp; omega
      · exact List.filter_congr fun e _ => by rw [Bool.eq_iff_iff]; simp; omega
  refine (key E.mintsShards).trans (.of_eq ?_)
  simp [E.mintsShard_lt]

theorem rest_found {s s' : TokenStore} (hs : Reordered s s') (p : Pubkey) (fs : List AccountFilterType) (c : Commitment) (l : List AccountData) :
    restJob l s (.found ⟨p, fs, c⟩ none) = (do
      let r ← (if c = .finalized then (.ok (.ok l) : Run (Except LoadError (List AccountData)))
        else do
          let r ← s'.processed.getAccounts (l.map (·.pubkey)) c s'.confirmedSlot
          return .ok (← TokenStore.overlay s'.mints l r))
      return (s, .accounts r)) := by
  obtain ⟨-, hf, he⟩ := hs
  simp only [restJob, restScan, overlay_congr hf]
  rw [he]
  split
  · rfl
  · simp only [assoc, ok_bind, pure_eq]

/-- **A reading call executed at once.** -/
theorem rest_read (E : Env) (σ : Orders) (s : TokenStore) (k : Call) (hk : k.modifies = false) :
    ∃ s', Reordered s s' ∧ rest E σ s k.start = (do let r ← readResult E.codecs σ s' k; return (s, r)) := by
  cases k with
  | submit a c => cases hk
  | process info c => cases hk
  | get pk c =>
    refine ⟨s, ⟨.refl _, fun _ => rfl, rfl⟩, ?_⟩
    simp only [Call.start, readResult, TokenStore.getAccount]
    split
    · simp only [rest, assoc, ok_bind, pure_eq]
    · simp only [rest, restScan, Scan.keys, assoc, ok_bind, pure_eq]
      congr 1; funext r
      congr 1; funext o
      rcases o with _ | ⟨x, slot⟩ <;> rfl
  | gpa p fs c =>
    have hr : Reordered s { s with mints := inShards E (List.range E.mintsShards) s.mints } :=
      ⟨inShards_perm E s.mints, fun i => (find_inShards E s.mints i _).trans (if_pos (List.mem_range.2 (E.mintsShard_lt i))), rfl⟩
    refine ⟨_, hr, ?_⟩
    simp only [Call.start, rest, readResult, TokenStore.getProgramAccounts, TokenStore.gpaFinalized]
    split
    · rfl
    · cases fs with
      | none => rfl
      | some fs =>
        simp only
        cases ownerMintFilter p fs with
        | mk o m =>
          cases o with
          | some o =>
            simp only [restIndex, assoc, pure_eq]
            congr 1; funext m
            cases s.byOwner.find (prefix4 o) with
            | none => simp only [restFound, convAll, ok_bind, pure_eq, rest_found hr]
            | some is =>
              simp only [restOwner, restFound, assoc, rest_found hr, convAll_tokens, ok_bind, pure_eq, ← tokens_congr hr.2.1]
              cases m <;> rfl
          | none =>
            cases m with
            | some m =>
              simp only
              cases s.table.index.find m with
              | none => simp only [restFound, convAll, ok_bind, pure_eq, assoc, rest_found hr]
              | some i =>
                simp only [restByMint]
                cases s.byMint.find i with
                | none => simp only [restFound, convAll, ok_bind, pure_eq, assoc, rest_found hr]
                | some is =>
                  simp only [restMint, restFound, assoc, rest_found hr, convAll_tokens, ok_bind, pure_eq, ← tokens_congr hr.2.1]
            | none =>
              simp only
              split
              · simp only [rest_found hr, mintsOf, assoc, ok_bind, pure_eq]
              · rfl

end LAM.TokConc
