import Verif.Model.Rpc
import Verif.Basic.Toy
import Mathlib.Data.List.Forall2
/-!
# C63, C75, C76: the RPC server
-/
namespace LAM.Props
open LAM Rpc

/-! ## What a request asks for -/

/-- The answer shall have a context. -/
def WantsContext (config : Option ProgramConfig) : Prop := ∃ c, config = some c ∧ c.withContext = some true

instance (config : Option ProgramConfig) : Decidable (WantsContext config) :=
  match config with
  | none => isFalse (by simp [WantsContext])
  | some c => if h : c.withContext = some true then isTrue ⟨c, rfl, h⟩ else isFalse (by rintro ⟨c', e, h'⟩; cases e; exact h h')

/-- `slot` is the greatest updated slot of `l` (0 if `l` is empty). -/
def IsGreatestSlot (l : List AccountData) (slot : Nat) : Prop :=
  (l = [] ∧ slot = 0) ∨ ((∃ a ∈ l, a.slot = slot) ∧ ∀ a ∈ l, a.slot ≤ slot)

/-- `k` shows the account `a` in the requested encoding (base64 if none is given) and slice. -/
def Shows {U : Type} (X : Codecs) (E : Externals U) (config : Option AccountConfig) (a : AccountData) (u : U) : Prop :=
  ∃ d, a.account.data.data X = .ok d ∧ ∃ encoding slice,
    (encoding = .base64 ∧ (∀ c, config = some c → c.encoding = none) ∨ ∃ c, config = some c ∧ c.encoding = some encoding) ∧
    (slice = none ∧ (∀ c, config = some c → c.dataSlice = none) ∨ ∃ c, config = some c ∧ slice = c.dataSlice) ∧
    u = E.encode a.pubkey ⟨a.account.lamports, d, a.account.owner, a.account.executable, a.account.rentEpoch⟩ encoding slice

/-- The filter with the meaning of the RPC filter: a pattern is given by its bytes, an undecodable one is empty. -/
def SameFilter (X : Codecs) : RpcFilter → AccountFilterType → Prop
  | .dataSize n, f => f = .datasize n
  | .memcmp off (.bytes b), f => f = .memcmp ⟨off, .bytes b⟩
  | .memcmp off (.base58 s), f => f = .memcmp ⟨off, .bytes ((X.b58 s).getD [])⟩
  | .memcmp off (.base64 s), f => f = .memcmp ⟨off, .bytes ((X.b64 s).getD [])⟩
  | .tokenAccountState, _ => False

/-- The filters handed to the storage for a request. -/
def FiltersFor (X : Codecs) (config : Option ProgramConfig) (fs : Option (List AccountFilterType)) : Prop :=
  match config.bind (·.filters), fs with
  | none, none => True
  | some rs, some fs => List.Forall₂ (SameFilter X) rs fs
  | _, _ => False

/-- The commitment of a request: finalized if none is given. -/
def commitmentFor (config : Option AccountConfig) : Commitment :=
  match config with
  | some ⟨_, _, some level, _⟩ => Commitment.ofConfig level
  | _ => .finalized

variable {U : Type} {X : Codecs} {E : Externals U} {S : Storage}

theorem toUi_shows {a : AccountData} {config : Option AccountConfig} {u : U} (h : toUi X E a config = .ok u) :
    Shows X E config a u := by
  simp only [toUi, Account.toSolana] at h
  obtain ⟨r, h1, h2⟩ := Run.bind_eq_ok.1 h
  obtain ⟨d, h3, h4⟩ := Run.bind_eq_ok.1 h1
  cases h4; cases h2
  refine ⟨d, h3, _, _, ?_, ?_, rfl⟩
  · rcases config with _ | ⟨_ | e, _⟩ <;> simp
  · rcases config with _ | ⟨_, _ | e, _⟩ <;> simp

theorem keyed_shows {minSlot : Nat} {config : Option AccountConfig} : ∀ {l : List AccountData} {r : List (KeyedAccount U)},
    keyed X E minSlot config l = .ok r →
    List.Forall₂ (fun a k => k.pubkey = E.text a.pubkey ∧ Shows X E config a k.account)
      (l.filter (fun a => decide (minSlot ≤ a.slot))) r
  | [], r, h => by cases h; exact .nil
  | a :: l, r, h => by
    simp only [keyed] at h
    split at h
    · rename_i hs
      obtain ⟨u, h1, h⟩ := Run.bind_eq_ok.1 h
      obtain ⟨us, h2, h⟩ := Run.bind_eq_ok.1 h
      cases h
      rw [List.filter_cons_of_pos (by simpa using hs)]
      exact .cons ⟨rfl, toUi_shows h1⟩ (keyed_shows h2)
    · rename_i hs
      rw [List.filter_cons_of_neg (by simpa using hs)]
      exact keyed_shows h

theorem maxSlot_greatest (l : List AccountData) : IsGreatestSlot l (maxSlot l) := by
  cases hl : l with
  | nil => exact .inl ⟨rfl, rfl⟩
  | cons a t =>
    rw [← hl]
    right
    have hne : l.map (·.slot) ≠ [] := by simp [hl]
    cases hm : (l.map (·.slot)).max? with
    | none => rw [List.max?_eq_none_iff] at hm; exact absurd hm hne
    | some m =>
      rw [List.max?_eq_some_iff] at hm
      simp only [maxSlot, List.max?_eq_some_iff.2 hm, Option.getD_some]
      refine ⟨?_, fun b hb => hm.2 _ (List.mem_map_of_mem hb)⟩
      obtain ⟨b, hb, e⟩ := List.mem_map.1 hm.1
      exact ⟨b, hb, e⟩

theorem ofRpc_same {r : RpcFilter} {f : AccountFilterType} (h : AccountFilterType.ofRpc X r = .ok f) : SameFilter X r f := by
  cases r with
  | dataSize n => cases h; rfl
  | memcmp off b => cases h; cases b <;> rfl
  | tokenAccountState => cases h

theorem ofRpc_all {rs : List RpcFilter} : ∀ {fs : List AccountFilterType}, mapRun (AccountFilterType.ofRpc X) rs = .ok fs →
    List.Forall₂ (SameFilter X) rs fs := by
  induction rs with
  | nil => intro fs h; cases h; exact .nil
  | cons r rs ih =>
    intro fs h
    obtain ⟨f, h1, h⟩ := Run.bind_eq_ok.1 h
    obtain ⟨fs, h2, h⟩ := Run.bind_eq_ok.1 h
    cases h
    exact .cons (ofRpc_same h1) (ih h2)

theorem commitmentFor_eq (config : Option AccountConfig) :
    Commitment.ofConfig ((config.bind (·.commitment)).getD defaultCommitment) = commitmentFor config := by
  rcases config with _ | ⟨_, _, _ | c, _⟩ <;> rfl

/-! ## C63 -/

/-- C63: an answer is made from the accounts the storage gives for the requested program, filters and commitment.  With a
context, exactly the accounts updated at or after the minimal slot are shown, in the order of the storage, and the context slot
is the greatest updated slot of all accounts the storage gave.  Without, all are shown and the minimal slot plays no role. -/
theorem C63_program_accounts (program : Bytes) (config : Option ProgramConfig) (r : OptionalContext (List (KeyedAccount U)))
    (h : getProgramAccounts X E S program config = .ok (.ok r)) :
    ∃ p fs gpa shown, E.parse program = some p ∧ FiltersFor X config fs ∧
      S.getProgramAccounts p fs (commitmentFor (config.map (·.account))) = .ok (.ok gpa) ∧
      (WantsContext config → ∃ slot, r = .context ⟨slot, shown⟩ ∧ IsGreatestSlot gpa slot) ∧
      (¬ WantsContext config → r = .noContext shown) ∧
      List.Forall₂ (fun a k => k.pubkey = E.text a.pubkey ∧ Shows X E (config.map (·.account)) a k.account)
        (gpa.filter (fun a => decide (∀ c, config = some c → c.withContext = some true → ∀ m, c.account.minContextSlot = some m →
          m ≤ a.slot))) shown := by
  simp only [getProgramAccounts] at h
  cases hp : E.parse program with
  | none => simp [hp] at h
  | some p =>
    simp only [hp] at h
    obtain ⟨fs, hfs, h⟩ := Run.bind_eq_ok.1 h
    have hff : FiltersFor X config fs := by
      rcases config with _ | ⟨_ | rs, _⟩
      · cases hfs; trivial
      · cases hfs; trivial
      · obtain ⟨fs', h1, h2⟩ := Run.bind_eq_ok.1 hfs
        cases h2
        exact ofRpc_all h1
    obtain ⟨g, hg, h⟩ := Run.bind_eq_ok.1 h
    cases g with
    | error e => simp at h
    | ok gpa =>
      simp only at h
      obtain ⟨shown, hk, h⟩ := Run.bind_eq_ok.1 h
      refine ⟨p, fs, gpa, shown, rfl, hff, ?_, ?_, ?_, ?_⟩
      · rw [← commitmentFor_eq]
        rcases config with _ | c
        · exact hg
        · exact hg
      · rintro ⟨c, rfl, hc⟩
        simp [hc] at h
        exact ⟨_, h.symm, maxSlot_greatest gpa⟩
      · intro hn
        have : ¬ (config.map (·.withContext.getD false)).getD false = true := by
          rcases config with _ | ⟨_, _, _ | _ | _⟩
          · simp
          · simp
          · simp
          · exact absurd ⟨_, rfl, rfl⟩ hn
        rw [if_neg this] at h
        cases h; rfl
      · have e : ∀ a : AccountData, decide (∀ c, config = some c → c.withContext = some true →
            ∀ m, c.account.minContextSlot = some m → m ≤ a.slot) = decide (((config.map (fun c =>
            if c.withContext.getD false then c.account.minContextSlot else none)).getD none).getD 0 ≤ a.slot) := by
          intro a
          rcases config with _ | ⟨_, ⟨_, _, _, _ | m⟩, _ | _ | _⟩ <;> simp
        simp only [e]
        exact keyed_shows hk

/-- C63: a request is answered if the program id is one, no filter asks for the token account state (which panics), the
storage answers and the data of its accounts can be decompressed. -/
theorem C63_answers (program : Bytes) (config : Option ProgramConfig) (p : Pubkey) (hp : E.parse program = some p)
    (hf : ∀ c, config = some c → ∀ rs, c.filters = some rs → RpcFilter.tokenAccountState ∉ rs)
    (hs : ∀ fs c, ∃ gpa, S.getProgramAccounts p fs c = .ok (.ok gpa) ∧ ∀ a ∈ gpa, ∃ d, a.account.data.data X = .ok d) :
    ∃ r, getProgramAccounts X E S program config = .ok (.ok r) := by
  have hk : ∀ (m : Nat) (c : Option AccountConfig) (l : List AccountData),
      (∀ a ∈ l, ∃ d, a.account.data.data X = .ok d) → ∃ r, keyed X E m c l = .ok r := by
    intro m c l
    induction l with
    | nil => exact fun _ => ⟨_, rfl⟩
    | cons a l ih =>
      intro hl
      obtain ⟨r, hr⟩ := ih (fun b hb => hl b (List.mem_cons_of_mem _ hb))
      obtain ⟨d, hd⟩ := hl a List.mem_cons_self
      simp only [keyed]
      split
      · simp [toUi, Account.toSolana, hd, hr]
      · exact ⟨r, hr⟩
  have hm : ∀ rs : List RpcFilter, RpcFilter.tokenAccountState ∉ rs → ∃ fs, mapRun (AccountFilterType.ofRpc X) rs = .ok fs := by
    intro rs
    induction rs with
    | nil => exact fun _ => ⟨_, rfl⟩
    | cons r rs ih =>
      intro hn
      obtain ⟨fs, e⟩ := ih (fun h => hn (List.mem_cons_of_mem _ h))
      cases r with
      | dataSize n => simp [mapRun, AccountFilterType.ofRpc, e]
      | memcmp o b => simp [mapRun, AccountFilterType.ofRpc, e]
      | tokenAccountState => exact absurd List.mem_cons_self hn
  have hfs : ∃ fs, accountFilters X config = .ok fs := by
    rcases config with _ | ⟨_ | rs, _⟩
    · exact ⟨_, rfl⟩
    · exact ⟨_, rfl⟩
    · obtain ⟨fs, e⟩ := hm rs (hf _ rfl rs rfl)
      exact ⟨some fs, by simp [accountFilters, e]⟩
  obtain ⟨fs, e⟩ := hfs
  obtain ⟨gpa, hg, hd⟩ := hs fs (Commitment.ofConfig ((config.bind (·.account.commitment)).getD defaultCommitment))
  obtain ⟨r, hr⟩ := hk (((config.map (fun c => if c.withContext.getD false then c.account.minContextSlot else none)).getD none).getD 0)
    (config.map (·.account)) gpa hd
  simp only [getProgramAccounts, hp]
  rw [e, Run.ok_bind, hg, Run.ok_bind]
  simp only [hr, Run.ok_bind]
  split <;> exact ⟨_, rfl⟩

/-- Public keys as text are their bytes; an account is shown by its lamports, encoding and slice. -/
def toyExternals : Externals (Nat × Encoding × Option (Nat × Nat)) where
  parse b := if h : b.length = 32 then some ⟨b, h⟩ else none
  text p := p.bytes
  encode _ a e s := (a.lamports, e, s)
  base64 b := b

/-- A storage with accounts of slots 5, 9 and 7. -/
def toyStorage : Storage where
  getAccount _ _ := .ok (.ok (some (Toy.acct Toy.alice Toy.prog 10 5 0)))
  getProgramAccounts _ _ _ :=
    .ok (.ok [Toy.acct Toy.alice Toy.prog 10 5 0, Toy.acct Toy.bob Toy.prog 11 9 0, Toy.acct Toy.prog2 Toy.prog 12 7 0])
  createSnapshot _ := .ok (.ok [1, 2])

/-- With a context and minimal slot 6, the account of slot 5 is left out. -/
example : getProgramAccounts Toy.codecs toyExternals toyStorage Toy.prog.bytes
    (some ⟨some [.dataSize 3], ⟨none, some (0, 1), none, some 6⟩, some true⟩) =
    .ok (.ok (.context ⟨9, [⟨Toy.bob.bytes, 11, .base64, some (0, 1)⟩, ⟨Toy.prog2.bytes, 12, .base64, some (0, 1)⟩]⟩)) := by
  rfl

/-- Without a context the minimal slot is ignored. -/
example : getProgramAccounts Toy.codecs toyExternals toyStorage Toy.prog.bytes
    (some ⟨none, ⟨some .base58, none, none, some 6⟩, none⟩) =
    .ok (.ok (.noContext [⟨Toy.alice.bytes, 10, .base58, none⟩, ⟨Toy.bob.bytes, 11, .base58, none⟩,
      ⟨Toy.prog2.bytes, 12, .base58, none⟩])) := by
  rfl

/-! ## C75: the minimal context slot -/

/-- C75, as claimed (and as the RPC interface documents `minContextSlot`): the context slot of an answer is not before the
minimal context slot of the request. -/
def C75_statement : Prop :=
  ∀ (U : Type) (X : Codecs) (E : Externals U) (S : Storage) (program : Bytes) (config : ProgramConfig) (slot m : Nat)
    (v : List (KeyedAccount U)), config.account.minContextSlot = some m →
    getProgramAccounts X E S program (some config) = .ok (.ok (.context ⟨slot, v⟩)) → m ≤ slot

/-- C75 is false: a request for slot 100 is answered with an empty list and the context slot 9, not refused. -/
theorem C75_refuted : ¬ C75_statement := by
  intro h
  have := h _ Toy.codecs toyExternals toyStorage Toy.prog.bytes ⟨none, ⟨none, none, none, some 100⟩, some true⟩ 9 100 [] rfl
    rfl
  omega

/-- C75 if an account is shown; so an early answer is empty. -/
theorem C75_not_empty_partial (program : Bytes) (config : ProgramConfig) (slot m : Nat) (v : List (KeyedAccount U))
    (hm : config.account.minContextSlot = some m)
    (h : getProgramAccounts X E S program (some config) = .ok (.ok (.context ⟨slot, v⟩))) (hv : v ≠ []) : m ≤ slot := by
  obtain ⟨p, fs, gpa, shown, _, _, _, h1, h2, h3⟩ := C63_program_accounts program (some config) _ h
  by_cases hw : WantsContext (some config)
  · obtain ⟨s, e, hg⟩ := h1 hw
    cases e
    obtain ⟨c, e, hc⟩ := hw
    cases e
    cases hf : gpa.filter (fun a => decide (∀ c, some config = some c → c.withContext = some true →
        ∀ m, c.account.minContextSlot = some m → m ≤ a.slot)) with
    | nil => rw [hf] at h3; cases h3; exact absurd rfl hv
    | cons a l =>
      have ha := List.mem_filter.1 (hf ▸ List.mem_cons_self : a ∈ gpa.filter _)
      have := of_decide_eq_true ha.2 _ rfl hc m hm
      rcases hg with ⟨e, _⟩ | ⟨_, hg⟩
      · rw [e] at ha; simp at ha
      · exact Nat.le_trans this (hg a ha.1)
  · exact absurd (h2 hw) (by simp)

/-! ## C76: single accounts and snapshots -/

/-- C76: `getAccountInfo` shows the account the storage has at the requested commitment (finalized if none is given) with its
updated slot as context slot, and slot 0 if there is none; the minimal context slot plays no role. -/
theorem C76_account_info (pubkey : Bytes) (config : Option AccountConfig) (r : Response (Option U))
    (h : getAccountInfo X E S pubkey config = .ok (.ok r)) :
    ∃ pk answer, E.parse pubkey = some pk ∧ S.getAccount pk (commitmentFor config) = .ok (.ok answer) ∧
      (answer = none → r.slot = 0 ∧ r.value = none) ∧
      (∀ a, answer = some a → r.slot = a.slot ∧ ∃ u, r.value = some u ∧ Shows X E config a u) := by
  simp only [getAccountInfo] at h
  cases hp : E.parse pubkey with
  | none => simp [hp] at h
  | some pk =>
    simp only [hp, commitmentFor_eq] at h
    obtain ⟨g, hg, h⟩ := Run.bind_eq_ok.1 h
    refine ⟨pk, ?_⟩
    match g, hg, h with
    | .error e, _, h => simp at h
    | .ok none, hg, h => cases h; exact ⟨none, rfl, hg, fun _ => ⟨rfl, rfl⟩, fun _ e => by cases e⟩
    | .ok (some a), hg, h =>
      obtain ⟨u, hu, h⟩ := Run.bind_eq_ok.1 h
      cases h
      exact ⟨some a, rfl, hg, (fun e => by cases e), fun b e => by cases e; exact ⟨rfl, u, rfl, toUi_shows hu⟩⟩

/-- C76: `getSnapshot` gives the storage's snapshot of the program in base64. -/
theorem C76_snapshot (program b : Bytes) :
    getSnapshot E S program = .ok (.ok b) ↔
      ∃ p s, E.parse program = some p ∧ S.createSnapshot p = .ok (.ok s) ∧ b = E.base64 s := by
  simp only [getSnapshot]
  cases hp : E.parse program with
  | none => simp
  | some p =>
    cases hs : S.createSnapshot p with
    | ok r => cases r <;> simp [hs, eq_comm]
    | panic => simp [hs]
    | diverge => simp [hs]

example : getAccountInfo Toy.codecs toyExternals toyStorage Toy.alice.bytes none = .ok (.ok ⟨5, some (10, .base64, none)⟩) := by
  rfl

end LAM.Props
