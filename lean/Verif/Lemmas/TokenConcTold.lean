import Verif.Lemmas.TokenConcDue
import Verif.Spec.TokenConcTold
/-!
# Concurrent calls of the token program store: finalized states that are shown were reported
-/
namespace LAM.TokConc
open Token Run Spec ProcStore
open Spl (tokenId token2022Id)

theorem Direct.mono {log log' : List (Nat × Event)} (h : log <+: log') {a : AccountData} (ha : Direct log a) : Direct log' a := by
  obtain ⟨t, c, hm, hc⟩ := ha
  exact ⟨t, c, h.subset hm, hc⟩

theorem FinalHeard.mono {log log' : List (Nat × Event)} (h : log <+: log') {b : AccountData} (hb : FinalHeard log b) :
    FinalHeard log' b := by
  obtain ⟨pre, t, info, l, post, rfl, h2, h3⟩ := hb
  obtain ⟨post', rfl⟩ := h
  exact ⟨pre, t, info, l, post ++ post', by simp, h2, h3⟩

/-! ## What an account is converted to -/

/-- `x` can be converted to `b`, with mints whose indexes were given out. -/
def Conv (g : List Pubkey) (x : ProgramAccount) (b : AccountData) : Prop :=
  ∃ (ms : AMap Nat MintAccount) (k v : Nat), (∀ i m, ms.find i = some m → Issued g i m.pubkey) ∧ x.toSolana ms k v = .ok (some b)

theorem Conv.mono {g g' : List Pubkey} (hg : g <+: g') {x : ProgramAccount} {b : AccountData} (h : Conv g x b) : Conv g' x b := by
  obtain ⟨ms, k, v, h1, h2⟩ := h
  exact ⟨ms, k, v, fun i m hm => (h1 i m hm).mono hg, h2⟩

theorem tokenToSolana_eq {ms : AMap Nat MintAccount} {t : TokenAccount} {k v : Nat} {b : AccountData}
    (h : tokenToSolana ms t k v = .ok (some b)) : ∃ m, ms.find t.mint = some m ∧
      b = ⟨t.pubkey, solanaAccount (Spl.rentMinimum (tokenData t m.pubkey).length) (tokenData t m.pubkey) t.program, k, v⟩ := by
  unfold tokenToSolana at h
  split at h
  · simp at h
  · cases hm : ms.find t.mint with
    | none => simp [hm, Run.unwrap] at h
    | some m =>
      simp only [hm, Run.unwrap, Run.ok_bind, Run.pure_eq, Run.ok.injEq, Option.some.injEq] at h
      exact ⟨m, rfl, h.symm⟩

/-- It is always converted to the same account. -/
theorem Conv.same {g : List Pubkey} (hg : g.length ≤ 2 ^ 32) {x : ProgramAccount} {b b' : AccountData} (h : Conv g x b)
    (h' : Conv g x b') : b'.pubkey = b.pubkey ∧ b'.account = b.account := by
  obtain ⟨ms, k, v, h1, h2⟩ := h
  obtain ⟨ms', k', v', h1', h2'⟩ := h'
  cases x with
  | token t =>
    obtain ⟨m, hm, rfl⟩ := tokenToSolana_eq h2
    obtain ⟨m', hm', rfl⟩ := tokenToSolana_eq h2'
    have : m'.pubkey = m.pubkey := (h1' _ _ hm').unique hg (h1 _ _ hm)
    exact ⟨rfl, by rw [this]⟩
  | mint m =>
    simp only [ProgramAccount.toSolana, Run.ok.injEq, Option.some.injEq] at h2 h2'
    subst h2 h2'
    exact ⟨rfl, rfl⟩
  | multisig m pk =>
    simp only [ProgramAccount.toSolana, multisigToSolana] at h2 h2'
    cases hm : multisigBytes m <;> simp [hm] at h2 h2'
    subst h2 h2'
    exact ⟨rfl, rfl⟩
  | deleted pk => simp [ProgramAccount.toSolana] at h2

/-! ## Stored accounts -/

/-- What is stored is in `K`. -/
structure Has (K : ProgramAccount → Prop) (s : TokenStore) : Prop where
  tokens : ∀ bs ∈ s.tokens.accounts, ∃ t : TokenAccount, bs = t.toBytes ∧ TokenFits t ∧ (t.isDeleted = true ∨ K (.token t))
  mints : ∀ i m, (i, m) ∈ s.mints → K (.mint m)
  multisigs : ∀ pk m, s.multisigs.find pk = some m → K (.multisig m pk)

theorem Has.mono {K K' : ProgramAccount → Prop} (h : ∀ x, K x → K' x) {s : TokenStore} (hs : Has K s) : Has K' s where
  tokens := fun bs hb => by
    obtain ⟨t, h1, h2, h3⟩ := hs.tokens bs hb
    exact ⟨t, h1, h2, h3.imp id (h _)⟩
  mints := fun i m hm => h _ (hs.mints i m hm)
  multisigs := fun pk m hm => h _ (hs.multisigs pk m hm)

theorem Has.decode {K : ProgramAccount → Prop} {s : TokenStore} (hs : Has K s) {bs : Bytes} (hb : bs ∈ s.tokens.accounts)
    {t : TokenAccount} (h : TokenAccount.fromBytes bs = .ok t) : t.isDeleted = true ∨ K (.token t) := by
  obtain ⟨t', rfl, h2, h3⟩ := hs.tokens bs hb
  rw [fromBytes_toBytes h2] at h
  cases h
  exact h3

theorem Has.byPubkey {K : ProgramAccount → Prop} {s : TokenStore} (hs : Has K s) {pk : Pubkey} {t : TokenAccount}
    (h : s.tokens.getByPubkey pk = .ok (some t)) : t.isDeleted = true ∨ K (.token t) := by
  unfold TokenStorage.getByPubkey at h
  split at h
  · simp only [Run.bind_eq_ok] at h
    obtain ⟨o, -, h⟩ := h
    cases o with
    | none => simp at h
    | some i =>
      simp only [Run.bind_eq_ok, Run.pure_eq, Run.ok.injEq, Option.some.injEq] at h
      obtain ⟨bs, hb, t', ht, rfl⟩ := h
      cases hi : s.tokens.accounts[i]? with
      | none => simp [hi, Run.unwrap] at hb
      | some bs' =>
        simp only [hi, Run.unwrap_some, Run.ok.injEq] at hb
        subst hb
        exact hs.decode (List.mem_of_getElem? hi) ht
  · simp at h

theorem mem_mapRun {α β : Type} {f : α → Run β} {l : List α} {r : List β} (h : mapRun f l = .ok r) : ∀ y ∈ r, ∃ x ∈ l, f x = .ok y := by
  induction l generalizing r with
  | nil => simp [mapRun] at h; simp [h]
  | cons a l ih =>
    simp only [mapRun, Run.bind_eq_ok, Run.pure_eq, Run.ok.injEq] at h
    obtain ⟨y, hy, ys, hys, rfl⟩ := h
    intro z hz
    rcases List.mem_cons.1 hz with rfl | hz
    · exact ⟨a, by simp, hy⟩
    · obtain ⟨x, hx, hf⟩ := ih hys z hz
      exact ⟨x, by simp [hx], hf⟩

theorem Has.byIndex {K : ProgramAccount → Prop} {s : TokenStore} (hs : Has K s) {is : List Nat} {ts : List TokenAccount}
    (h : s.tokens.getByIndex is = .ok ts) : ∀ t ∈ ts, t.isDeleted = true ∨ K (.token t) := by
  intro t ht
  obtain ⟨bs, hb, hf⟩ := mem_mapRun h t ht
  obtain ⟨i, -, hi⟩ := List.mem_filterMap.1 hb
  exact hs.decode (List.mem_of_getElem? hi) hf

theorem Has.save {K : ProgramAccount → Prop} {s : TokenStore} (hs : Has K s) {t : TokenAccount} (hf : TokenFits t) (hk : K (.token t))
    {r : Nat × Bool} {T : TokenStorage} (h : s.tokens.save t = .ok (r, T)) : Has K { s with tokens := T } := by
  refine ⟨fun bs hb => ?_, hs.mints, hs.multisigs⟩
  have new : bs ∈ s.tokens.accounts ++ [t.toBytes] ∨ (∃ i, bs ∈ s.tokens.accounts.set i t.toBytes) → bs ∈ s.tokens.accounts ∨ bs = t.toBytes := by
    rintro (h | ⟨i, h⟩)
    · simpa using h
    · exact List.mem_or_eq_of_mem_set h
  have hb : bs ∈ s.tokens.accounts ∨ bs = t.toBytes := by
    refine new ?_
    unfold TokenStorage.save at h
    split at h
    · simp only [Run.bind_eq_ok] at h
      obtain ⟨o, -, h⟩ := h
      cases o with
      | none =>
        simp only [Run.pure_eq, Run.ok.injEq, Prod.mk.injEq] at h
        obtain ⟨-, rfl⟩ := h
        exact .inl hb
      | some i =>
        simp only [Run.pure_eq, Run.ok.injEq, Prod.mk.injEq] at h
        obtain ⟨-, rfl⟩ := h
        exact .inr ⟨i, hb⟩
    · simp only [Run.ok.injEq, Prod.mk.injEq] at h
      obtain ⟨-, rfl⟩ := h
      exact .inl hb
  rcases hb with hb | rfl
  · exact hs.tokens bs hb
  · exact ⟨t, rfl, hf, .inr hk⟩

/-! ## Decoding with the table that results -/

theorem getOrCreate_find (T : MintTable) (mint : Pubkey) : (T.getOrCreate mint).2.index.find mint = some (T.getOrCreate mint).1 := by
  unfold MintTable.getOrCreate
  cases hf : T.index.find mint with
  | some i => exact hf
  | none => simp [AMap.find_insert]

/-- What is stored of an account has its content. -/
theorem classify_stored {X : Codecs} {g : List Pubkey} {T T' : MintTable} (hT : TableOK g T') {a : AccountData} {x : ProgramAccount}
    (h : Token.classify X T a = .ok (some x, T')) {S : AccountData → Prop} (hS : S a) : From X g S x := by
  have token : ∀ (p : Program) (bs : Bytes) (sa : Spl.Account), TokenProgramOwned a p → a.account.data.data X = .ok bs →
      Spl.unpackAccount bs = some sa → x = .token (tokenOf a p sa (T.getOrCreate sa.mint).1 none) →
      T' = (T.getOrCreate sa.mint).2 → From X g S x := by
    rintro p bs sa ho hd hu rfl rfl
    have h3 := hT.index _ _ (getOrCreate_find T sa.mint)
    exact .token hS ho hd ((Spl.unpackAccount_iff _ _).1 hu) h3 (tokenOf_matches ho.1) rfl rfl (tokenOf_fits hu a p h3.lt false rfl)
  have mint : ∀ (p : Program) (bs : Bytes) (sm : Spl.Mint), TokenProgramOwned a p → a.account.data.data X = .ok bs →
      Spl.unpackMint bs = some sm → x = .mint (mintOf a p sm none) → From X g S x := by
    rintro p bs sm ho hd hu rfl
    exact .mint hS ho hd ((Spl.unpackMint_iff _ _).1 hu) ⟨rfl, rfl, rfl, rfl, rfl, rfl, rfl⟩ rfl rfl
  have multisig : ∀ (p : Program) (bs : Bytes) (sm : Spl.Multisig), TokenProgramOwned a p → a.account.data.data X = .ok bs →
      Spl.unpackMultisig bs = some sm → x = .multisig (multisigOf a p sm) a.pubkey → From X g S x := by
    rintro p bs sm ho hd hu rfl
    exact .multisig hS ho hd ((Spl.unpackMultisig_iff _ _).1 hu) ⟨rfl, rfl, rfl, rfl, rfl⟩ rfl rfl
  unfold Token.classify at h
  split at h
  · rename_i hd
    simp only [Run.ok.injEq, Prod.mk.injEq, Option.some.injEq] at h
    obtain ⟨rfl, rfl⟩ := h
    exact .deleted hS fun p hp => owned_not_deleted hp hd
  · rename_i hlive
    simp only [not_or, not_and] at hlive
    split at h
    · rename_i ho
      have ho : TokenProgramOwned a .token2022Program := ⟨hlive.1, ho⟩
      simp only [Run.bind_eq_ok] at h
      obtain ⟨bs, hd, k, hk, h⟩ := h
      split at h
      · simp at h
      · split at h
        · simp at h
        · rename_i sm hu
          simp only [Run.bind_eq_ok] at h
          obtain ⟨e, he, h⟩ := h
          simp only [Run.pure_eq, Run.ok.injEq, Prod.mk.injEq, Option.some.injEq] at h
          have he := tail165_none hk he (by rw [((Spl.unpackMint_iff _ _).1 hu).length]; omega)
          subst he
          exact mint _ _ _ ho hd hu h.1.symm
      · split at h
        · simp at h
        · rename_i sa hu
          simp only [Run.bind_eq_ok] at h
          obtain ⟨e, he, h⟩ := h
          simp only [Run.pure_eq, Run.ok.injEq, Prod.mk.injEq, Option.some.injEq] at h
          have he := tail165_none hk he (by rw [((Spl.unpackAccount_iff _ _).1 hu).length])
          subst he
          exact token _ _ _ ho hd hu h.1.symm h.2.symm
      · split at h
        · simp at h
        · rename_i sm hu
          simp only [Run.pure_eq, Run.ok.injEq, Prod.mk.injEq, Option.some.injEq] at h
          exact multisig _ _ _ ho hd hu h.1.symm
    · rename_i ho
      have ho : TokenProgramOwned a .tokenProgram := ⟨hlive.1, by by_contra hc; exact ho (by
        by_contra hc'; exact hlive.2 hc hc')⟩
      simp only [Run.bind_eq_ok] at h
      obtain ⟨bs, hd, h⟩ := h
      split at h
      · split at h
        · simp at h
        · rename_i sm hu
          simp only [Run.pure_eq, Run.ok.injEq, Prod.mk.injEq, Option.some.injEq] at h
          exact mint _ _ _ ho hd hu h.1.symm
      · split at h
        · split at h
          · simp at h
          · rename_i sa hu
            simp only [Run.pure_eq, Run.ok.injEq, Prod.mk.injEq, Option.some.injEq] at h
            exact token _ _ _ ho hd hu h.1.symm h.2.symm
        · split at h
          · simp at h
          · rename_i sm hu
            simp only [Run.pure_eq, Run.ok.injEq, Prod.mk.injEq, Option.some.injEq] at h
            exact multisig _ _ _ ho hd hu h.1.symm

/-! ## What the threads have -/

/-- The reply of a thread that is storing finalized accounts. -/
def Pc.reply : Pc → Option Reply
  | .add _ f | .save _ f | .pushMint _ _ f | .pushOwner _ _ f | .putMint _ _ _ f | .eraseMint _ f | .eraseByMint _ f | .again _ f
  | .dropBucket _ f | .entomb _ _ f => some f.reply
  | _ => none

/-- An account that this call stores as finalized is closed, or was submitted as finalized, or is in its reply. -/
def Told (X : Codecs) (log : List (Nat × Event)) (g : List Pubkey) (k : Call) (r : Reply) (x : ProgramAccount) : Prop :=
  (∃ pk, x = .deleted pk) ∨ From X g (Direct log) x ∨
    ∃ l b info, r = .reported l ∧ b ∈ l ∧ Conv g x b ∧ k = .process info .finalized

/-- Converted from something in `K`. -/
def Seen (g : List Pubkey) (K : ProgramAccount → Prop) (b : AccountData) : Prop := ∃ x, K x ∧ Conv g x b

/-- An account of a finalized answer. -/
def ItemSeen (g : List Pubkey) (K : ProgramAccount → Prop) : Item → Prop
  | .keep b => Seen g K b
  | .conv x _ _ => (∃ t, x = .token t ∧ t.isDeleted = true) ∨ K x

/-- More accounts to store as finalized; the reply shows nothing as finalized. -/
def Owes (X : Codecs) (log : List (Nat × Event)) (g : List Pubkey) (k : Call) (f : After) : Prop :=
  ((∃ b, f.reply = .updated b) ∨ ∃ l, f.reply = .reported l) ∧ ∀ y ∈ f.todo, Told X log g k f.reply y.1.account

/-- What a thread has. -/
def Tells (X : Codecs) (log : List (Nat × Event)) (g : List Pubkey) (K : ProgramAccount → Prop) (k : Call) : Pc → Prop
  | .add x f => Told X log g k f.reply x ∧ Owes X log g k f
  | .save t f => Told X log g k f.reply (.token t) ∧ Owes X log g k f
  | .putMint m _ _ f => Told X log g k f.reply (.mint m) ∧ Owes X log g k f
  | .pushMint _ _ f | .pushOwner _ _ f | .eraseMint _ f | .eraseByMint _ f | .again _ f | .dropBucket _ f | .entomb _ _ f => Owes X log g k f
  | .convert items out (.finalized l) => ∀ y ∈ l, Told X log g k (.reported out) y.1.account ∨ Item.conv y.1.account y.2 y.1.wv ∈ items
  | .convert items out (.found _ _) => (∀ i ∈ items, ItemSeen g K i) ∧ ∀ b ∈ out, Seen g K b
  | .convert items out .one => (∃ pk, k = .get pk .finalized) → (∀ i ∈ items, ItemSeen g K i) ∧ ∀ b ∈ out, Seen g K b
  | .finMultisigSlot pk m => K (.multisig m pk)
  | .finMintSlot _ _ m => K (.mint m)
  | .finSlot t => K (.token t)
  | .gpaMints _ _ _ out => ∀ b ∈ out, Seen g K b
  | _ => True

/-- What a reply shows as finalized. -/
def ReplyTells (g : List Pubkey) (K : ProgramAccount → Prop) : Call → Reply → Prop
  | .get _ .finalized, .account (some b) => Seen g K b
  | .gpa _ _ .finalized, .accounts (.ok l) => ∀ b ∈ l, Seen g K b
  | _, _ => True

def NextTells (X : Codecs) (log : List (Nat × Event)) (g : List Pubkey) (K : ProgramAccount → Prop) (k : Call) : Next → Prop
  | .go p => Tells X log g K k p
  | .ret r => ReplyTells g K k r

section Mono
variable {X : Codecs} {log log' : List (Nat × Event)} {g g' : List Pubkey} {K K' : ProgramAccount → Prop}
  (hl : log <+: log') (hg : g <+: g') (hK : ∀ x, K x → K' x)

include hl hg in
theorem Told.mono {k : Call} {r : Reply} {x : ProgramAccount} (h : Told X log g k r x) : Told X log' g' k r x := by
  rcases h with h | h | ⟨l, b, info, h1, h2, h3, h4⟩
  · exact .inl h
  · exact .inr (.inl (h.mono hg fun a ha => ha.mono hl))
  · exact .inr (.inr ⟨l, b, info, h1, h2, h3.mono hg, h4⟩)

include hl hg in
theorem Owes.mono {k : Call} {f : After} (h : Owes X log g k f) : Owes X log' g' k f := ⟨h.1, fun y hy => (h.2 y hy).mono hl hg⟩

include hg hK in
theorem Seen.mono {b : AccountData} (h : Seen g K b) : Seen g' K' b := by
  obtain ⟨x, h1, h2⟩ := h
  exact ⟨x, hK x h1, h2.mono hg⟩

include hg hK in
theorem ItemSeen.mono {i : Item} (h : ItemSeen g K i) : ItemSeen g' K' i := by
  cases i with
  | keep b => exact Seen.mono hg hK h
  | conv x k v => exact Or.imp id (hK x) h

include hl hg hK in
theorem Tells.mono {k : Call} {p : Pc} (h : Tells X log g K k p) : Tells X log' g' K' k p := by
  cases p with
  | add x f => exact ⟨h.1.mono hl hg, h.2.mono hl hg⟩
  | save t f => exact ⟨h.1.mono hl hg, h.2.mono hl hg⟩
  | putMint m i new f => exact ⟨h.1.mono hl hg, h.2.mono hl hg⟩
  | pushMint | pushOwner | eraseMint | eraseByMint | again | dropBucket | entomb => exact Owes.mono hl hg h
  | convert items out j =>
    cases j with
    | finalized l => exact fun y hy => (h y hy).imp (fun h => h.mono hl hg) id
    | found q mi => exact ⟨fun i hi => (h.1 i hi).mono hg hK, fun b hb => (h.2 b hb).mono hg hK⟩
    | one => exact fun hk => ⟨fun i hi => ((h hk).1 i hi).mono hg hK, fun b hb => ((h hk).2 b hb).mono hg hK⟩
    | _ => trivial
  | finMultisigSlot | finMintSlot | finSlot => exact hK _ h
  | gpaMints q slot shards out => exact fun b hb => (h b hb).mono hg hK
  | _ => trivial

include hg hK in
theorem ReplyTells.mono {k : Call} {r : Reply} (h : ReplyTells g K k r) : ReplyTells g' K' k r := by
  cases k with
  | get pk c =>
    cases c <;> try trivial
    cases r with
    | account o => cases o with
      | none => trivial
      | some b => exact Seen.mono hg hK h
    | _ => trivial
  | gpa p fs c =>
    cases c <;> try trivial
    cases r with
    | accounts r => cases r with
      | error e => trivial
      | ok l => exact fun b hb => (h b hb).mono hg hK
    | _ => trivial
  | _ => trivial
end Mono

/-! ## Steps of a thread -/

section Steps
variable {E : Env} {log : List (Nat × Event)} {g : List Pubkey} {K : ProgramAccount → Prop} {k : Call}

theorem Owes.next {f : After} (h : Owes E.codecs log g k f) : NextTells E.codecs log g K k f.next := by
  unfold After.next
  split
  · rcases h.1 with ⟨b, hb⟩ | ⟨l, hb⟩ <;> rw [hb] <;> cases k <;> rename_i c <;> first | trivial | (cases c <;> trivial)
  · rename_i x l he
    exact ⟨h.2 x (by simp [he]), h.1, fun y hy => h.2 y (by simp [he, hy])⟩

theorem scan_tells {c : Commitment} {j : Scan} (hj : ScanOK E.codecs log k c j) {r : Answers} {n : Next} (h : j.next r = .ok n) :
    NextTells E.codecs log g K k n := by
  cases j with
  | one pk =>
    simp only [Scan.next, Run.bind_eq_ok] at h
    obtain ⟨o, -, h⟩ := h
    cases o with
    | none =>
      simp only [Run.pure_eq, Run.ok.injEq] at h
      subst h
      trivial
    | some x =>
      simp only [Run.pure_eq, Run.ok.injEq] at h
      subst h
      rintro ⟨pk', rfl⟩
      exact absurd rfl hj.2.1
  | overlay l =>
    simp only [Scan.next, Run.ok.injEq] at h
    subst h
    trivial

theorem items_tells {ts : List TokenAccount} (h : ∀ t ∈ ts, t.isDeleted = true ∨ K (.token t)) (slot : Nat) :
    ∀ i ∈ tokenItems slot ts, ItemSeen g K i := by
  intro i hi
  obtain ⟨t, ht, rfl⟩ := List.mem_map.1 hi
  rcases h t ht with h | h
  · exact .inl ⟨t, rfl, h⟩
  · exact .inr h

/-- A converted account. -/
theorem item_conv {s : TokenStore} (hm : ∀ i m, s.mints.find i = some m → Issued g i m.pubkey) {x : ProgramAccount} {slot wv : Nat}
    (h : ItemSeen g K (.conv x slot wv)) {r : Option AccountData} (hr : x.toSolana s.mints slot wv = .ok r) : ∀ b ∈ r.toList, Seen g K b := by
  intro b hb
  have hb : r = some b := by simpa using hb
  subst hb
  rcases h with ⟨t, rfl, ht⟩ | h
  · simp [ProgramAccount.toSolana, tokenToSolana, ht] at hr
  · exact ⟨x, h, s.mints, slot, wv, hm, hr⟩

/-- **A step.** -/
theorem out_tells {g₀ : List Pubkey} (hg : g₀ <+: g) {σ : Orders} {s s' : TokenStore} {n : Nat} {p : Pc} {nx : Next}
    (hs : StoreOK E.codecs log g₀ s) (hT : TableOK g s'.table) (hv : Serves E.codecs log g₀ n k p) (hh : Has K s)
    (ht : Tells E.codecs log g K k p)
    (hK : ∀ r x, p.reply = some r → Told E.codecs log g k r x → (∃ pk, x = .deleted pk) ∨ K x) (ho : Out E σ s p s' nx) :
    Has K s' ∧ NextTells E.codecs log g K k nx := by
  have hm : ∀ i m, s.mints.find i = some m → Issued g i m.pubkey := fun i m hi => (hs.mintKeys i m hi).mono hg
  cases ho
  case classifyA a c x T hc hcm =>
    refine ⟨⟨hh.tokens, hh.mints, hh.multisigs⟩, .inr (.inl ?_), .inl ⟨_, rfl⟩, by simp⟩
    cases hv with
    | classify h =>
      obtain ⟨t, ht⟩ := h
      refine classify_stored hT hc ⟨t, c, ht, ?_⟩
      match c, hcm with
      | none, _ => exact .inl rfl
      | some .finalized, _ => exact .inr rfl
      | some .processed, hcm => simp at hcm
      | some .confirmed, hcm => simp at hcm
  case addToken t f => exact ⟨hh, ht⟩
  case addMint m f i hi => exact ⟨hh, ht⟩
  case addMintNew m f hi => exact ⟨⟨hh.tokens, hh.mints, hh.multisigs⟩, ht⟩
  case addMultisig m pk f =>
    refine ⟨⟨hh.tokens, hh.mints, fun pk' m' hm' => ?_⟩, ht.2.next⟩
    simp only [AMap.find_insert] at hm'
    split at hm'
    · rename_i e
      subst e
      cases hm'
      rcases hK _ _ rfl ht.1 with ⟨pk, h⟩ | h
      · cases h
      · exact h
    · exact hh.multisigs _ _ hm'
  case addDeletedMint pk f i hi => exact ⟨⟨hh.tokens, hh.mints, hh.multisigs⟩, ht.2⟩
  case addDeleted pk f hi => exact ⟨hh, ht.2⟩
  case saveNew t f i T hi =>
    cases hv with
    | save h h' =>
      refine ⟨hh.save h.fits.1 ?_ hi, ht.2⟩
      rcases hK _ _ rfl ht.1 with ⟨pk, h⟩ | h
      · cases h
      · exact h
  case saveOld t f i T hi =>
    cases hv with
    | save h h' =>
      refine ⟨hh.save h.fits.1 ?_ hi, ht.2.next⟩
      rcases hK _ _ rfl ht.1 with ⟨pk, h⟩ | h
      · cases h
      · exact h
  case pushMint t i f => exact ⟨⟨hh.tokens, hh.mints, hh.multisigs⟩, ht⟩
  case pushOwner t i f => exact ⟨⟨hh.tokens, hh.mints, hh.multisigs⟩, Owes.next ht⟩
  case putMint m i f =>
    refine ⟨⟨hh.tokens, fun i' m' hm' => ?_, hh.multisigs⟩, ht.2.next⟩
    rcases AMap.mem_insert hm' with e | h
    · cases e
      rcases hK _ _ rfl ht.1 with ⟨pk, h⟩ | h
      · cases h
      · exact h
    · exact hh.mints _ _ h
  case putMintNew m i f =>
    refine ⟨⟨hh.tokens, fun i' m' hm' => ?_, hh.multisigs⟩, ht.2.next⟩
    rcases AMap.mem_insert hm' with e | h
    · cases e
      rcases hK _ _ rfl ht.1 with ⟨pk, h⟩ | h
      · cases h
      · exact h
    · exact hh.mints _ _ h
  case eraseMint i f => exact ⟨⟨hh.tokens, fun i' m' hm' => hh.mints i' m' (List.mem_filter.1 hm').1, hh.multisigs⟩, ht⟩
  case eraseByMint i f => exact ⟨⟨hh.tokens, hh.mints, hh.multisigs⟩, Owes.next ht⟩
  case againMint pk f i hi => exact ⟨⟨hh.tokens, hh.mints, hh.multisigs⟩, Owes.next ht⟩
  case again pk f hi => exact ⟨hh, ht⟩
  case dropBucket pk f is hi => exact ⟨⟨hh.tokens, hh.mints, hh.multisigs⟩, ht⟩
  case dropNone pk f hi => exact ⟨hh, Owes.next ht⟩
  case entomb pk is f i hi =>
    refine ⟨⟨fun bs hb => ?_, hh.mints, hh.multisigs⟩, Owes.next ht⟩
    rcases List.mem_or_eq_of_mem_set hb with hb | rfl
    · exact hh.tokens bs hb
    · exact ⟨_, rfl, tombstone_fits, .inl rfl⟩
  case entombNone pk is f hi => exact ⟨hh, Owes.next ht⟩
  case scanConfirmed n j r hr hj => cases hv with | scan h => exact ⟨hh, scan_tells h hj⟩
  case scanDone n j r hr hj => cases hv with | scan h => exact ⟨hh, scan_tells h hj⟩
  case rescan n ret j r hr hj => cases hv with | rescan h => exact ⟨hh, scan_tells h hj⟩
  case finMultisig pk m hm => exact ⟨hh, hh.multisigs _ _ hm⟩
  case finMultisigSlot pk m r hr =>
    refine ⟨hh, ?_⟩
    cases hv with
    | @finMultisigSlot _ c =>
      cases c <;> try trivial
      exact ⟨_, ht, s.mints, s.finalizedSlot, 0, hm, by simp [ProgramAccount.toSolana, hr]⟩
  case finMint pk i m hi => exact ⟨hh, hh.mints _ _ (AMap.mem_of_find hi)⟩
  case finMintSlot pk i m =>
    refine ⟨hh, ?_⟩
    cases hv with
    | @finMintSlot _ c =>
      cases c <;> try trivial
      exact ⟨_, ht, s.mints, s.finalizedSlot, 0, hm, rfl⟩
  case finBucketN pk hi =>
    refine ⟨hh, ?_⟩
    cases hv with
    | @finBucket _ c => cases c <;> trivial
  case finAccounts pk t hi hd =>
    refine ⟨hh, ?_⟩
    rcases hh.byPubkey hi with h | h
    · rw [hd] at h; cases h
    · exact h
  case finAccountsN pk =>
    refine ⟨hh, ?_⟩
    cases hv with
    | @finAccounts _ c => cases c <;> trivial
  case finSlot t =>
    refine ⟨hh, fun _ => ⟨fun i hi => ?_, by simp⟩⟩
    rw [List.mem_singleton] at hi
    subst hi
    exact .inr ht
  case gpaErr p fs c e he =>
    refine ⟨hh, ?_⟩
    cases hv with
    | gpaStart => cases c <;> trivial
  case gpaMints p fs c h1 h2 h3 => exact ⟨hh, fun b hb => by simp at hb⟩
  case indexNone | mintNone | byMintNone => exact ⟨hh, by simp, by simp⟩
  case get q slot owner mint is ts hi =>
    exact ⟨hh, items_tells (fun t ht => hh.byIndex hi t (List.mem_filter.1 ht).1) slot, by simp⟩
  case mintGet q slot mint i is ts hi => exact ⟨hh, items_tells (hh.byIndex hi) slot, by simp⟩
  case mintsEnd q slot out =>
    refine ⟨hh, fun i hi => ?_, by simp⟩
    obtain ⟨b, hb, rfl⟩ := List.mem_map.1 hi
    exact ht b hb
  case mints q slot n shards out l hl =>
    refine ⟨hh, fun b hb => ?_⟩
    rcases List.mem_append.1 hb with hb | hb
    · exact ht b hb
    · obtain ⟨⟨i, m⟩, he, rfl⟩ := List.mem_map.1 (mem_filterRun hl b hb)
      exact ⟨.mint m, hh.mints i m (List.mem_filter.1 he).1, s.mints, slot, 0, hm, rfl⟩
  case convertEnd out j =>
    refine ⟨hh, ?_⟩
    cases hv with
    | convert h1 h2 h3 =>
      cases k <;> cases j <;> try exact h1.elim
      case process.confirmed => trivial
      case process.finalized info c l =>
        refine Owes.next (f := ⟨l, .reported out⟩) ⟨.inr ⟨_, rfl⟩, fun y hy => ?_⟩
        rcases ht y hy with h | h
        · exact h
        · simp at h
      case get.one pk c =>
        cases c <;> try trivial
        have ht := (ht ⟨pk, rfl⟩).2
        cases out with
        | nil => trivial
        | cons b out => exact ht b (by simp)
      case gpa.found p fs c q mi =>
        obtain ⟨-, -, rfl, -⟩ := h1
        simp only [Job.next]
        split
        · rename_i hc
          rw [hc]
          exact ht.2
        · trivial
      case gpa.overlay p fs c =>
        cases c <;> try trivial
        exact absurd rfl h1.1
  case keep a l out j =>
    refine ⟨hh, ?_⟩
    cases j with
    | finalized l' =>
      intro y hy
      rcases ht y hy with h | h
      · refine .inl ?_
        rcases h with h | h | ⟨l1, b, info, h1, h2, h3, h4⟩
        · exact .inl h
        · exact .inr (.inl h)
        · cases h1
          exact .inr (.inr ⟨_, b, info, rfl, by simp [h2], h3, h4⟩)
      · simp only [List.mem_cons, reduceCtorEq, false_or] at h
        exact .inr h
    | found q mi =>
      refine ⟨fun i hi => ht.1 i (by simp [hi]), fun b hb => ?_⟩
      rcases List.mem_append.1 hb with hb | hb
      · exact ht.2 b hb
      · rw [List.mem_singleton] at hb
        subst hb
        exact ht.1 (.keep b) (by simp)
    | one =>
      intro hk
      have ht := ht hk
      refine ⟨fun i hi => ht.1 i (by simp [hi]), fun b hb => ?_⟩
      rcases List.mem_append.1 hb with hb | hb
      · exact ht.2 b hb
      · rw [List.mem_singleton] at hb
        subst hb
        exact ht.1 (.keep b) (by simp)
    | _ => trivial
  case conv x slot wv l out j r hr =>
    refine ⟨hh, ?_⟩
    cases j with
    | finalized l' =>
      intro y hy
      rcases ht y hy with h | h
      · refine .inl ?_
        rcases h with h | h | ⟨l1, b, info, h1, h2, h3, h4⟩
        · exact .inl h
        · exact .inr (.inl h)
        · cases h1
          exact .inr (.inr ⟨_, b, info, rfl, by simp [h2], h3, h4⟩)
      · rcases List.mem_cons.1 h with h | h
        · left
          cases h
          cases hv with
          | convert h1 h2 h3 =>
            cases k <;> try exact h1.elim
            rename_i info c
            obtain ⟨rfl, h1⟩ := h1
            cases r with
            | some b => exact .inr (.inr ⟨_, b, info, rfl, by simp, ⟨s.mints, _, _, hm, hr⟩, rfl⟩)
            | none =>
              left
              have hf := h1 y hy
              cases hx : y.1.account with
              | token t =>
                rw [hx] at hf hr
                exfalso
                simp only [ProgramAccount.toSolana, tokenToSolana, hf.fits.2, Bool.false_eq_true, if_false, Run.bind_eq_ok,
                  Run.pure_eq, Run.ok.injEq] at hr
                obtain ⟨m, -, h⟩ := hr
                cases h
              | mint m => rw [hx] at hr; simp [ProgramAccount.toSolana] at hr
              | multisig m pk =>
                rw [hx] at hr
                simp only [ProgramAccount.toSolana, Run.bind_eq_ok, Run.pure_eq, Run.ok.injEq] at hr
                obtain ⟨m, -, h⟩ := hr
                cases h
              | deleted pk => exact ⟨pk, rfl⟩
        · exact .inr h
    | found q mi =>
      refine ⟨fun i hi => ht.1 i (by simp [hi]), fun b hb => ?_⟩
      rcases List.mem_append.1 hb with hb | hb
      · exact ht.2 b hb
      · exact item_conv hm (ht.1 _ (by simp)) hr b hb
    | one =>
      intro hk
      have ht := ht hk
      refine ⟨fun i hi => ht.1 i (by simp [hi]), fun b hb => ?_⟩
      rcases List.mem_append.1 hb with hb | hb
      · exact ht.2 b hb
      · exact item_conv hm (ht.1 _ (by simp)) hr b hb
    | _ => trivial
  case finalize info P l hl =>
    refine ⟨⟨hh.tokens, hh.mints, hh.multisigs⟩, fun y hy => .inr ?_⟩
    exact List.mem_map.2 ⟨y, hy, rfl⟩
  case chkBucketF | chkAccountsF => exact ⟨hh, by cases hv; trivial⟩
  case classifyN | insert => exact ⟨⟨hh.tokens, hh.mints, hh.multisigs⟩, by cases hv; trivial⟩
  case psProcessed | missing => exact ⟨⟨hh.tokens, hh.mints, hh.multisigs⟩, by cases hv; trivial⟩
  all_goals exact ⟨⟨hh.tokens, hh.mints, hh.multisigs⟩, trivial⟩

end Steps

/-- A thread that stores keeps its reply, and gives it in the end. -/
theorem out_reply {E : Env} {σ : Orders} {s s' : TokenStore} {p : Pc} {n : Next} (h : Out E σ s p s' n) {r : Reply}
    (hr : p.reply = some r) : (∃ p', n = .go p' ∧ p'.reply = some r) ∨ n = .ret r := by
  have next : ∀ f : After, some f.reply = some r → (∃ p', f.next = .go p' ∧ p'.reply = some r) ∨ f.next = .ret r := by
    intro f hf
    cases hf
    unfold After.next
    split
    · exact .inr rfl
    · exact .inl ⟨_, rfl, rfl⟩
  cases h <;> first | (cases hr; done) | exact next _ hr | exact .inl ⟨_, rfl, hr⟩

/-- It does not panic, and does not loop. -/
theorem reply_runs {E : Env} {σ : Orders} {s : TokenStore} {p : Pc} (hp : Placed s.tokens)
    (he : ∀ pk is f, p = .entomb pk is f → ∀ i ∈ is, i < s.tokens.accounts.length) {r : Reply} (hr : p.reply = some r) :
    ∃ x, p.exec E σ s = .ok x := by
  cases p <;> try (cases hr; done)
  case add x f =>
    cases x <;> simp only [Pc.exec] <;> first | exact ⟨_, rfl⟩ | (split <;> exact ⟨_, rfl⟩)
  case save t f =>
    obtain ⟨r, T, h, -⟩ := save_placed hp t
    exact ⟨_, by simp only [Pc.exec, h, Run.ok_bind]; rfl⟩
  case entomb pk is f =>
    obtain ⟨o, h⟩ := firstMatch_placed hp pk is (he pk is f rfl)
    simp only [Pc.exec, h, Run.ok_bind]
    cases o <;> exact ⟨_, rfl⟩
  all_goals
    simp only [Pc.exec]
    first | exact ⟨_, rfl⟩ | (split <;> exact ⟨_, rfl⟩)

/-! ## All threads -/

/-- It is in the answer to a finalized notification, or will be. -/
def Pool (w : World) (b : AccountData) : Prop :=
  FinalHeard w.log b ∨ ∃ t info l, LastCall w.log t (.process info .finalized) ∧ (w.pc t).reply = some (.reported l) ∧ b ∈ l

/-- Submitted as finalized, or in such an answer. -/
def Known (X : Codecs) (w : World) (g : List Pubkey) (x : ProgramAccount) : Prop :=
  From X g (Direct w.log) x ∨ ∃ b, Pool w b ∧ Conv g x b

theorem step_longer {E : Env} {w w' : World} (h : Step E w w') : w.log <+: w'.log := by
  cases h with
  | work hw =>
    obtain ⟨t, -, -, ⟨σ, s, p, -, rfl, -⟩ | ⟨σ, s, r, -, rfl⟩ | ⟨σ, -, rfl⟩ | ⟨σ, -, rfl⟩⟩ := work_cases hw
    · exact List.prefix_refl _
    · exact List.prefix_append _ _
    · exact List.prefix_append _ _
    · exact List.prefix_refl _
  | call t k => exact List.prefix_append _ _

theorem pool_step {E : Env} {w w' : World} (reach : Reachable E w) (hs : Step E w w') {b : AccountData} (h : Pool w b) : Pool w' b := by
  rcases h with h | ⟨u, info, l, h1, h2, h3⟩
  · exact .inl (h.mono (step_longer hs))
  · cases hs with
    | work hw =>
      obtain ⟨t, hi, -, h⟩ := work_cases hw
      by_cases e : u = t
      · subst e
        obtain ⟨hp1, hp2⟩ := placed reach
        rcases h with ⟨σ, s, p, ho, rfl, -⟩ | ⟨σ, s, r, ho, rfl⟩ | ⟨σ, hp, rfl⟩ | ⟨σ, hp, rfl⟩
        · rcases out_reply ho h2 with ⟨p', h4, h5⟩ | h4
          · cases h4
            exact .inr ⟨u, info, l, h1, by simpa only [upd_self] using h5, h3⟩
          · cases h4
        · rcases out_reply ho h2 with ⟨p', h4, h5⟩ | h4
          · cases h4
          · cases h4
            exact .inl ⟨w.log, u, info, l, [], rfl, h1, h3⟩
        · obtain ⟨x, h⟩ := reply_runs (E := E) (σ := σ) hp1 (hp2 u) h2
          rw [hp] at h; cases h
        · obtain ⟨x, h⟩ := reply_runs (E := E) (σ := σ) hp1 (hp2 u) h2
          rw [hp] at h; cases h
      · right
        rcases h with ⟨σ, s, p, ho, rfl, -⟩ | ⟨σ, s, r, ho, rfl⟩ | ⟨σ, hp, rfl⟩ | ⟨σ, hp, rfl⟩
        · exact ⟨u, info, l, h1, by simpa only [upd_other e] using h2, h3⟩
        · exact ⟨u, info, l, lastCall_snoc.2 (.inr ⟨Ne.symm e, h1⟩), by simpa only [upd_other e] using h2, h3⟩
        · exact ⟨u, info, l, lastCall_snoc.2 (.inr ⟨Ne.symm e, h1⟩), by simpa only [upd_other e] using h2, h3⟩
        · exact ⟨u, info, l, h1, by simpa only [upd_other e] using h2, h3⟩
    | call t k hi =>
      have e : u ≠ t := fun e => by
        subst e
        rw [hi] at h2
        cases h2
      exact .inr ⟨u, info, l, lastCall_snoc.2 (.inr ⟨Ne.symm e, h1⟩), by simpa only [upd_other e] using h2, h3⟩

theorem known_step {E : Env} {w w' : World} (reach : Reachable E w) (hs : Step E w w') {X : Codecs} {g g' : List Pubkey} (hg : g <+: g')
    {x : ProgramAccount} (h : Known X w g x) : Known X w' g' x := by
  rcases h with h | ⟨b, h1, h2⟩
  · exact .inl (h.mono hg fun a ha => ha.mono (step_longer hs))
  · exact .inr ⟨b, pool_step reach hs h1, h2.mono hg⟩

/-- What is stored as finalized, held by threads, and shown as finalized. -/
structure AllTold (E : Env) (w : World) (g : List Pubkey) : Prop where
  store : Has (Known E.codecs w g) w.st
  pcs : ∀ t k, LastCall w.log t k → Tells E.codecs w.log g (Known E.codecs w g) k (w.pc t)
  replies : ∀ pre post t k r, w.log = pre ++ (t, .ret r) :: post → LastCall pre t k → ReplyTells g (Known E.codecs w g) k r

theorem told_init (E : Env) : AllTold E World.init [] where
  store := by
    constructor <;> simp [World.init, TokenStore.empty, TokenStorage.empty]
  pcs := by rintro t k ⟨pre, mid, h, -⟩; simp [World.init] at h
  replies := by intro pre post t k r h; simp [World.init] at h

theorem told_step {E : Env} {w w' : World} (reach : Reachable E w) (hs : Step E w w') {g g' : List Pubkey} (hg : g <+: g')
    (hinv : InvAt E w g) (hinv' : InvAt E w' g') (hd : AllTold E w g) : AllTold E w' g' := by
  obtain ⟨-, -, -, hst, hsv, -⟩ := hinv
  obtain ⟨-, -, -, hst', -, -⟩ := hinv'
  have hK : ∀ x, Known E.codecs w g x → Known E.codecs w' g' x := fun x h => known_step reach hs hg h
  have hl := step_longer hs
  have others : ∀ t k, LastCall w.log t k → Tells E.codecs w'.log g' (Known E.codecs w' g') k (w.pc t) :=
    fun t k h => (hd.pcs t k h).mono hl hg hK
  have olds : ∀ pre post t k r, w.log = pre ++ (t, .ret r) :: post → LastCall pre t k → ReplyTells g' (Known E.codecs w' g') k r :=
    fun pre post t k r h1 h2 => (hd.replies pre post t k r h1 h2).mono hg hK
  cases hs with
  | work hwk =>
    obtain ⟨t, hi, -, h⟩ := work_cases hwk
    obtain ⟨k, hk⟩ := (busy_iff reach t).1 (active_ne hi)
    have hv : Serves E.codecs w.log g w.st.tokens.accounts.length k (w.pc t) := by
      rcases hsv t k hk with h | ⟨l, h⟩
      · exact h
      · rw [h] at hi; exact hi.elim
    have step : ∀ σ s nx, Out E σ w.st (w.pc t) s nx → TableOK g' s.table →
        Has (Known E.codecs w' g') s ∧ NextTells E.codecs w.log g' (Known E.codecs w' g') k nx := by
      intro σ s nx ho hT
      refine out_tells hg hst hT hv (hd.store.mono hK) ((hd.pcs t k hk).mono (List.prefix_refl _) hg hK) ?_ ho
      rintro r x hr (h | h | ⟨l, b, info, rfl, h2, h3, rfl⟩)
      · exact .inl h
      · exact .inr (.inl (h.mono (List.prefix_refl _) fun a ha => ha.mono hl))
      · exact .inr (.inr ⟨b, pool_step reach (.work hwk) (.inr ⟨t, info, l, hk, hr, h2⟩), h3⟩)
    have kept : Has (Known E.codecs w' g') w.st := hd.store.mono hK
    rcases h with ⟨σ, s, p, ho, rfl, -⟩ | ⟨σ, s, r, ho, rfl⟩ | ⟨σ, hp, rfl⟩ | ⟨σ, hp, rfl⟩
    · obtain ⟨h1, h2⟩ := step σ s _ ho hst'.table
      refine ⟨h1, fun u k' hu => ?_, olds⟩
      by_cases e : u = t
      · subst e
        cases lastCall_unique hk hu
        simp only [upd_self]
        exact h2
      · simpa only [upd_other e] using others u k' hu
    · obtain ⟨h1, h2⟩ := step σ s _ ho hst'.table
      refine ⟨h1, fun u k' hu => ?_, fun pre post u k' r' he hu => ?_⟩
      · rcases lastCall_snoc.1 hu with ⟨-, h⟩ | ⟨e, hu⟩
        · cases h
        · simpa only [upd_other (Ne.symm e)] using others u k' hu
      · rcases snoc_ret he with ⟨rfl, rfl, h⟩ | ⟨post', h⟩
        · cases h
          cases lastCall_unique hk hu
          exact h2
        · exact olds pre post' u k' r' h hu
    · refine ⟨kept, fun u k' hu => ?_, fun pre post u k' r' he hu => ?_⟩
      · rcases lastCall_snoc.1 hu with ⟨-, h⟩ | ⟨e, hu⟩
        · cases h
        · simpa only [upd_other (Ne.symm e)] using others u k' hu
      · rcases snoc_ret he with ⟨rfl, rfl, h⟩ | ⟨post', h⟩
        · cases h
          cases k' <;> rename_i c <;> first | trivial | (cases c <;> trivial)
        · exact olds pre post' u k' r' h hu
    · refine ⟨kept, fun u k' hu => ?_, olds⟩
      by_cases e : u = t
      · subst e
        simp only [upd_self]
        trivial
      · simpa only [upd_other e] using others u k' hu
  | call t k hi =>
    refine ⟨hd.store.mono hK, fun u k' hu => ?_, fun pre post u k' r' he hu => ?_⟩
    · rcases lastCall_snoc.1 hu with ⟨rfl, h⟩ | ⟨e, hu⟩
      · cases h
        simp only [upd_self]
        cases k with
        | get pk c => simp only [Call.start]; split <;> trivial
        | _ => trivial
      · simpa only [upd_other (Ne.symm e)] using others u k' hu
    · rcases snoc_ret he with ⟨rfl, rfl, h⟩ | ⟨post', h⟩
      · cases h
      · exact olds pre post' u k' r' h hu

theorem told {E : Env} {w : World} (hr : Reachable E w) (hb : submits w.log ≤ 2 ^ 31) : ∃ g, InvAt E w g ∧ AllTold E w g := by
  induction hr with
  | refl => exact ⟨[], inv_init E, told_init E⟩
  | @tail w w' hw hs ih =>
    obtain ⟨g, h1, h2⟩ := ih (Nat.le_trans (step_submits hs) hb)
    obtain ⟨g', h3, h4⟩ := inv_step hw hs hb h1
    exact ⟨g', h4, told_step hw hs h3 h1 h4 h2⟩

theorem seen_explained {X : Codecs} {w : World} {g : List Pubkey} (hg : g.length ≤ 2 ^ 32) {b : AccountData}
    (h : Seen g (Known X w g) b) : Explained X w.log b ∨ ∃ u info, LastCall w.log u (.process info .finalized) := by
  obtain ⟨x, h | ⟨b', h1, h2⟩, hc⟩ := h
  · obtain ⟨ms, slot, wv, h1, h2⟩ := hc
    exact .inl (.inl (back hg h h1 h2).1)
  · rcases h1 with h1 | ⟨u, info, l, h1, -, -⟩
    · exact .inl (.inr ⟨b', h1, hc.same hg h2⟩)
    · exact .inr ⟨u, info, h1⟩

end LAM.TokConc
