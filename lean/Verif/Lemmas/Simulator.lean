import Verif.Lemmas.AppendVec
import Verif.Lemmas.TokenStoreReady
import Verif.Spec.Simulator
import Verif.Props.AppendVec
/-!
# Lemmas about archives
-/
namespace LAM.Sim
open Spec AppendVec Token
open TokenStore (TOp)

/-! ## Paths and declarations -/

theorem parseName_iff (name : List Char) (n : Nat × Nat) : parseName name = some n ↔ NameOf name n.1 n.2 :=
  Props.C62_parse_iff name n.1 n.2

theorem nameOf_unique {name : List Char} {s i s' i' : Nat} (h : NameOf name s i) (h' : NameOf name s' i') : s = s' ∧ i = i' := by
  have e1 := (parseName_iff name (s, i)).2 h
  have e2 := (parseName_iff name (s', i')).2 h'
  rw [e1] at e2; cases e2; exact ⟨rfl, rfl⟩

theorem pathName_iff (path : Path) (n : Nat × Nat) : (fileName path).bind parseName = some n ↔ AppendVecPath path n.1 n.2 := by
  unfold fileName AppendVecPath
  cases h : path.getLast? with
  | none =>
    rw [List.getLast?_eq_none_iff] at h
    subst h
    simp
  | some c =>
    obtain ⟨dir, rfl⟩ := List.getLast?_eq_some_iff.1 h
    cases c with
    | normal name =>
      simp only [Option.bind_some, parseName_iff]
      constructor
      · intro h; exact ⟨dir, name, rfl, h⟩
      · rintro ⟨d, nm, e, h⟩
        have := (List.append_inj' e rfl).2
        simp at this; subst this; exact h
    | raw b =>
      simp only [Option.bind_none]
      constructor
      · intro h; simp at h
      · rintro ⟨d, nm, e, h⟩
        have := (List.append_inj' e rfl).2
        simp at this
    | special =>
      simp only [Option.bind_none]
      constructor
      · intro h; simp at h
      · rintro ⟨d, nm, e, h⟩
        have := (List.append_inj' e rfl).2
        simp at this

theorem pathName_none (path : Path) : (fileName path).bind parseName = none ↔ ∀ slot id, ¬ AppendVecPath path slot id := by
  constructor
  · intro h slot id hp
    have := (pathName_iff path (slot, id)).2 hp
    rw [h] at this; simp at this
  · intro h
    cases hb : (fileName path).bind parseName with
    | none => rfl
    | some n => exact absurd ((pathName_iff path n).1 hb) (h _ _)

theorem isManifest_iff (path : Path) : isManifestFile path = true ↔ ManifestPath path := by
  constructor
  · intro h
    unfold isManifestFile at h
    split at h
    · rename_i dir a c
      simp only [Bool.and_eq_true, decide_eq_true_eq, Option.isSome_iff_exists] at h
      obtain ⟨⟨h1, slot, h2⟩, h3⟩ := h
      exact ⟨a, slot, (parseU64_iff _ _).1 h2, by rw [h1, h3]⟩
    · simp at h
  · rintro ⟨name, slot, h1, rfl⟩
    simp [isManifestFile, (parseU64_iff _ _).2 h1]

theorem isAppendVec_iff (path : Path) : isAppendVecFile path = true ↔ AccountsPath path := by
  constructor
  · intro h
    unfold isAppendVecFile at h
    split at h
    · rename_i dir a
      simp only [Bool.and_eq_true, decide_eq_true_eq, Option.isSome_iff_exists] at h
      obtain ⟨h1, n, h2⟩ := h
      exact ⟨a, n.1, n.2, (parseName_iff _ _).1 h2, by rw [h1]⟩
    · simp at h
  · rintro ⟨name, slot, id, h1, rfl⟩
    simp [isAppendVecFile, (parseName_iff name (slot, id)).2 h1]

theorem knownLen_iff (m : Manifest) (slot id len : Nat) : knownLen m slot id = some len ↔ Declared m slot id len := by
  unfold knownLen Declared
  simp only [Option.map_eq_some_iff, List.find?_eq_some_iff_append]
  constructor
  · rintro ⟨⟨i, n⟩, ⟨h1, l, l', h2, h3⟩, h4⟩
    simp only [decide_eq_true_eq] at h1 h4
    subst h1 h4
    exact ⟨l, l', h2, fun e he => by simpa using h3 e he⟩
  · rintro ⟨l, l', h1, h2⟩
    exact ⟨(id, len), ⟨by simp, l, l', h1, fun e he => by simpa using h2 e he⟩, rfl⟩

theorem knownLen_none (m : Manifest) (slot id : Nat) : knownLen m slot id = none ↔ ∀ len, ¬ Declared m slot id len := by
  constructor
  · intro h len hd
    have := (knownLen_iff m slot id len).2 hd
    rw [h] at this; simp at this
  · intro h
    cases hb : knownLen m slot id with
    | none => rfl
    | some len => exact absurd ((knownLen_iff m slot id len).1 hb) (h _)

/-! ## Well-formed archives -/

theorem field_take {f : Bytes} {off n k : Nat} (h : off + n ≤ k) : field (f.take k) off n = field f off n := by
  unfold field
  rw [List.drop_take, List.take_take, Nat.min_eq_left (by omega)]

theorem layout_take {f : Bytes} {len : Nat} : ∀ (ws : List Written) (off : Nat), Layout f len off ws → Layout (f.take len) len off ws
  | [], _, h => h
  | w :: ws, off, ⟨h1, h2, h3, h4⟩ => by
    refine ⟨h1, ?_, h3, layout_take ws _ h4⟩
    constructor
    · rw [field_take (by omega)]; exact h2.writeVersion
    · rw [field_take (by omega)]; exact h2.dataLen
    · rw [field_take (by omega)]; exact h2.pubkey
    · rw [field_take (by omega)]; exact h2.lamports
    · rw [field_take (by omega)]; exact h2.rentEpoch
    · rw [field_take (by omega)]; exact h2.owner
    · rw [field_take (by omega)]; exact h2.executable
    · rw [field_take (by omega)]; exact h2.hash
    · rw [field_take (by omega)]; exact h2.data

theorem reader_layout {content : Bytes} {len slot : Nat} {ws : List Written} (hc : len ≤ content.length) (hl : len < 2 ^ 63)
    (hw : Layout content len 0 ws) :
    ∃ l, iterate (newFromReader content len slot) (len / 136 + 1) 0 = .ok l ∧ l.map asWritten = ws.map some := by
  have hs : Sane (newFromReader content len slot) := ⟨by simp [newFromReader]; omega, by simp [newFromReader]; omega⟩
  obtain ⟨l, el, cl⟩ := iterate_chain hs (len / 136 + 1) 0 rfl (by simp [newFromReader]; omega) (by omega)
  refine ⟨l, el, chain_layout ws l 0 ?_ cl⟩
  have : len - content.length = 0 := by omega
  simp only [newFromReader, this, List.replicate_zero, List.append_nil]
  exact layout_take ws 0 hw

theorem submitted_of {a : StoredAccount} {w : Written} (h : asWritten a = some w) :
    a.account.owner = w.owner ∧ snapshotAccount a = w.submitted := by
  unfold asWritten at h
  split at h
  · rename_i hf
    simp only [Option.some.injEq] at h
    subst h
    refine ⟨rfl, ?_⟩
    simp only [snapshotAccount, StoredAccount.toAccount, Written.submitted]
    rcases hf with hf | hf <;> rw [hf] <;> rfl
  · simp at h

theorem run_append_store (X : Codecs) (l m : List TOp) (s : TokenStore) :
    TokenStore.run X (l ++ m) s = (do TokenStore.run X m (← TokenStore.run X l s)) := by
  induction l generalizing s with
  | nil => rfl
  | cons o l ih =>
    simp only [List.cons_append, TokenStore.run]
    cases s.step X o <;> simp [ih]

theorem loadAccounts_run (X : Codecs) : ∀ (l : List StoredAccount) (ws : List Written) (s : TokenStore),
    l.map asWritten = ws.map some →
    loadAccounts X l s = TokenStore.run X ((tokenOwned ws).map (fun w => TOp.init w.submitted)) s
  | [], [], s, _ => rfl
  | [], w :: ws, s, h => by simp at h
  | a :: l, [], s, h => by simp at h
  | a :: l, w :: ws, s, h => by
    simp only [List.map_cons, List.cons.injEq] at h
    obtain ⟨h1, h2⟩ := submitted_of h.1
    simp only [loadAccounts, h1, h2, tokenOwned, List.filter_cons]
    by_cases ho : w.owner = Spl.tokenId
    · simp only [ho, ne_eq, not_true, if_false, decide_true, if_true, List.map_cons, TokenStore.run, TokenStore.step]
      congr 1
      funext s'
      exact loadAccounts_run X l ws s' h.2
    · simp only [ho, ne_eq, not_false_eq_true, if_true, decide_false, Bool.false_eq_true, if_false]
      exact loadAccounts_run X l ws s h.2

theorem loadVecs_contains (X : Codecs) {m : Manifest} {items : List Item} {ws : List (Nat × Written)} (h : Contains m items ws)
    (s : TokenStore) :
    loadVecs X (archiveIter m items) s = TokenStore.run X ((tokenOwned (ws.map (·.2))).map (fun w => TOp.init w.submitted)) s := by
  induction h generalizing s with
  | nil => rfl
  | other hp h ih =>
    rw [archiveIter, List.filterMap_cons]
    simp only [(pathName_none _).2 hp, Option.map_none]
    exact ih s
  | @file path slot id len content items ws ws' hp hd hc hl hw h ih =>
    rw [archiveIter, List.filterMap_cons]
    simp only [(pathName_iff _ (slot, id)).2 hp, Option.map_some, processEntry, (knownLen_iff _ _ _ _).2 hd, loadVecs]
    obtain ⟨l, el, hl'⟩ := reader_layout (slot := slot) hc hl hw
    have hlen : (newFromReader content len slot).currentLen = len := rfl
    have happ : tokenOwned ((ws.map (fun w => (slot, w)) ++ ws').map (·.2)) = tokenOwned ws ++ tokenOwned (ws'.map (·.2)) := by
      simp [tokenOwned, Function.comp_def]
    rw [hlen, el, Run.ok_bind, loadAccounts_run X l ws s hl', happ, List.map_append, run_append_store]
    congr 1
    funext s'
    exact ih s'

theorem fromReader_skip (decode : Bytes → Option Manifest) (pre items : List Item)
    (h : ∀ i ∈ pre, ∃ p c, i = Item.entry p c ∧ ¬ ManifestPath p ∧ ¬ AccountsPath p) :
    fromReader decode (pre ++ items) = fromReader decode items := by
  induction pre with
  | nil => rfl
  | cons i pre ih =>
    obtain ⟨p, c, rfl, h1, h2⟩ := h i (by simp)
    rw [← isManifest_iff] at h1
    rw [← isAppendVec_iff] at h2
    simp only [List.cons_append, fromReader, h1, h2]
    simpa using ih (fun i hi => h i (by simp [hi]))

/-! ## Reading the store after loading -/

theorem iterate_length (v : AppendVec) : ∀ (rounds off : Nat) (l : List StoredAccount), iterate v rounds off = .ok l → l.length < rounds
  | 0, _, _, h => by simp [iterate] at h
  | rounds + 1, off, l, h => by
    simp only [iterate, Run.bind_eq_ok] at h
    obtain ⟨r, -, h⟩ := h
    cases r with
    | none => simp at h; subst h; simp
    | some r =>
      obtain ⟨a, next⟩ := r
      simp only [Run.bind_eq_ok] at h
      obtain ⟨l', h1, h2⟩ := h
      have := iterate_length v rounds next l' h1
      simp at h2; subst h2; simp; omega

theorem loadAccounts_total {X : Codecs} : ∀ (l : List StoredAccount) {n : Nat} {s : TokenStore} {slots orig : List TokenAccount},
    Inv (fun _ => True) n s slots orig → n + l.length < 2 ^ 31 →
    ∃ s' slots' orig', loadAccounts X l s = .ok s' ∧ Inv (fun _ => True) (n + l.length) s' slots' orig'
  | [], n, s, slots, orig, h, _ => ⟨s, slots, orig, rfl, h⟩
  | a :: l, n, s, slots, orig, h, hn => by
    simp only [List.length_cons] at hn
    by_cases ho : a.account.owner = Spl.tokenId
    · have hd : HonestData X (snapshotAccount a).account.data a.data := ⟨rfl, rfl⟩
      obtain ⟨r, hr⟩ := update_total h (by omega) hd .finalized
      have h1 : s.step X (.init (snapshotAccount a)) = .ok r.2 := by simp only [TokenStore.step, init_eq_update, hr]; rfl
      obtain ⟨slots1, orig1, i1⟩ := step_inv h (by omega) (fun _ _ _ _ _ => trivial) h1
      obtain ⟨s', slots', orig', e1, e2⟩ := loadAccounts_total (X := X) l i1 (by omega)
      refine ⟨s', slots', orig', ?_, e2.mono (by simp only [List.length_cons]; omega)⟩
      have h2 : s.initAccount X (snapshotAccount a) = .ok r.2 := h1
      simp only [loadAccounts, ho, ne_eq, not_true, if_false, h2, Run.ok_bind]
      exact e1
    · obtain ⟨s', slots', orig', e1, e2⟩ := loadAccounts_total (X := X) l h (by omega)
      refine ⟨s', slots', orig', ?_, e2.mono (by simp only [List.length_cons]; omega)⟩
      simp only [loadAccounts, ne_eq, ho, not_false_eq_true, if_true]
      exact e1

theorem loadVecs_total {X : Codecs} : ∀ (vs : List (Except SnapshotError AppendVec)) {n : Nat} {s : TokenStore}
    {slots orig : List TokenAccount}, Inv (fun _ => True) n s slots orig →
    (∀ e ∈ vs, ∃ v, e = .ok v ∧ Sane v) →
    n + (vs.map roomFor).sum < 2 ^ 31 →
    ∃ s', loadVecs X vs s = .ok s'
  | [], n, s, slots, orig, _, _, _ => ⟨s, rfl⟩
  | e :: vs, n, s, slots, orig, h, hv, hn => by
    obtain ⟨v, rfl, hs⟩ := hv e (by simp)
    simp only [List.map_cons, List.sum_cons, roomFor] at hn
    obtain ⟨l, el, -⟩ := iterate_chain hs (v.currentLen / 136 + 1) 0 rfl (by omega) (by omega)
    have hl := iterate_length v _ _ _ el
    obtain ⟨s1, slots1, orig1, e1, i1⟩ := loadAccounts_total (X := X) l h (by omega)
    obtain ⟨s', e2⟩ := loadVecs_total (X := X) vs (i1.mono (m := n + v.currentLen / 136) (by omega)) (fun e he => hv e (by simp [he])) (by omega)
    exact ⟨s', by simp only [loadVecs, el, Run.ok_bind, e1, e2]⟩

/-- What loading one account of the token program does. -/
theorem init_step {X : Codecs} {n : Nat} {s : TokenStore} {slots orig : List TokenAccount}
    (h : Inv (fun _ => True) n s slots orig) (hn : n < 2 ^ 31 - 1) {a : AccountData} {bs : Bytes}
    (ho : TokenProgramOwned a .tokenProgram) (hd : HonestData X a.account.data bs) :
    ∃ r T s' slots' orig', classify X s.table a = .ok (r, T) ∧ s.initAccount X a = .ok s' ∧
      Inv (fun _ => True) (n + 1) s' slots' orig' ∧ s'.finalizedSlot = s.finalizedSlot ∧
      (∀ pk i, s.table.index.find pk = some i → s'.table.index.find pk = some i) ∧
      (∀ pk i, T.index.find pk = some i → s'.table.index.find pk = some i) ∧
      (∀ pk, T.index.find pk ≠ s.table.index.find pk → ∃ sa, AccountLayout bs sa ∧ sa.mint = pk) ∧
      (∀ pk, s.table.index.find pk ≠ none → recOf { s with table := T } slots pk = recOf s slots pk) ∧
      (∀ pk, (recOf { s with table := T } slots pk).multi = (recOf s slots pk).multi ∧
        (recOf { s with table := T } slots pk).token = (recOf s slots pk).token) ∧
      (r = none → s' = s ∧ slots' = slots) ∧
      (∀ x, r = some x → x.pubkey = a.pubkey ∧ ProgFits x ∧ (∀ pk, x ≠ .deleted pk) ∧
        recOf s' slots' a.pubkey = (recOf { s with table := T } slots a.pubkey).apply x ∧
        ∀ pk, pk ≠ a.pubkey → recOf s' slots' pk = recOf { s with table := T } slots pk) := by
  have hb := h.bound
  have hcb := h.cbound
  obtain ⟨⟨r, T⟩, hc⟩ := classify_total (X := X) s.table hd
  obtain ⟨f1, f2, f3, f4, f5, f6⟩ := classify_inv h.fin (by omega) (fun _ _ _ => trivial) hc
  have hidx : ∀ pk, T.index.find pk ≠ s.table.index.find pk → ∃ sa, AccountLayout bs sa ∧ sa.mint = pk := by
    intro pk hpk
    cases r with
    | none => rw [f6 rfl] at hpk; exact absurd rfl hpk
    | some x =>
      obtain ⟨-, h2, -⟩ := classify_some hc
      rcases h2 with ⟨rfl, -⟩ | ⟨t, mint, rfl, hT, -⟩
      · exact absurd rfl hpk
      · obtain ⟨-, -, sa, hl, -, hT'⟩ := (Props.C46_token_iff X s.table a _ bs ho hd t T).1 hc
        refine ⟨sa, hl, ?_⟩
        by_cases e : sa.mint = pk
        · exact e
        · rw [hT'] at hpk
          exact absurd ((fin_getOrCreate h.fin sa.mint (by omega)).2.2.2.2.2.1 pk (fun h => e h.symm)) hpk
  have hrec : ∀ pk, s.table.index.find pk ≠ none → recOf { s with table := T } slots pk = recOf s slots pk := by
    intro pk hpk
    cases hi : s.table.index.find pk with
    | none => exact absurd hi hpk
    | some i => simp [recOf, hi, f4 pk i hi]
  cases r with
  | none =>
    have hi : s.initAccount X a = .ok s := by
      simp [TokenStore.initAccount, isToken_owned ho, hc, f6 rfl]
    obtain rfl := f6 rfl
    exact ⟨none, s.table, s, slots, orig, hc, hi, h.mono (by omega), rfl, fun _ _ h => h, fun _ _ h => h, hidx, hrec,
      fun _ => ⟨rfl, rfl⟩, fun _ => ⟨rfl, rfl⟩, by simp⟩
  | some x =>
    obtain ⟨g1, g2, -, g3⟩ := f5 x rfl
    have hnd : ∀ pk, x ≠ .deleted pk := by
      intro pk e
      have hp : pk = a.pubkey := by rw [← g1, e]; rfl
      have := (Props.C46_deleted_iff X s.table T a x hc).1 (by rw [e, hp])
      exact owned_not_deleted ho this
    obtain ⟨s', slots', orig', e1, e2, e3, e4, e5, e6, e7, e8, e9, e10, -, e11⟩ :=
      add_fin f1 g2 trivial g3 (by omega) (by show T.counter + 1 < 2 ^ 32; omega)
    have hi : s.initAccount X a = .ok s' := by
      simp only [TokenStore.initAccount, isToken_owned ho, hc, Run.ok_bind, Bool.not_true, Bool.false_eq_true, if_false]
      exact e1
    have hstep : s.step X (.init a) = .ok s' := hi
    have hinv : Inv (fun _ => True) (n + 1) s' slots' orig' := by
      have hp := h.proc
      have hb' := h.bound
      have hc' := h.cbound
      refine ⟨e2, ?_, ?_, ?_⟩
      · rw [e6]
        refine hp.mono ?_
        intro y hy
        exact ⟨hy.1, trivial, MintBelow.mono (c := s.table.counter) (by simp only at e4; omega) hy.2.2⟩
      · rw [e6]; show slots'.length + pending s.processed ≤ n + 1; omega
      · rw [e6]; show s'.table.counter + pending s.processed ≤ 2 * (n + 1); simp only at e5; omega
    have hmono : ∀ pk i, T.index.find pk = some i → s'.table.index.find pk = some i := by
      intro pk i hpi
      by_cases hpk : pk = x.pubkey
      · cases x with
        | token t =>
          obtain ⟨s2, _, _, a1, -, -, a4, -⟩ := add_token f1 g2.1 g2.2 trivial g3 (by omega)
          rw [e1] at a1; cases a1
          rw [a4]; exact hpi
        | mint m =>
          obtain ⟨s2, j, a1, -, -, -, -, -, -, -, -, a2, a3, -⟩ := add_mint f1 m (by show T.counter + 1 < 2 ^ 32; omega)
          rw [e1] at a1; cases a1
          rw [a3, if_pos (show m.pubkey = pk from hpk.symm)]
          rcases a2 with a2 | ⟨a2, -⟩
          · rw [← a2, ← hpi, hpk]; rfl
          · simp only at a2
            have : ProgramAccount.pubkey (.mint m) = m.pubkey := rfl
            rw [hpk, this, a2] at hpi; simp at hpi
        | multisig m pk' =>
          have : s'.table = T := by
            simp only [TokenStore.addFinalized, Run.ok.injEq] at e1
            rw [← e1]
          rw [this]; exact hpi
        | deleted pk' => exact absurd rfl (hnd pk')
      · rw [e9 pk hpk]; exact hpi
    refine ⟨some x, T, s', slots', orig', hc, hi, hinv, e8, fun pk i hpi => hmono pk i (f4 pk i hpi), hmono, hidx, hrec,
      fun _ => ⟨rfl, rfl⟩, by simp, ?_⟩
    intro y hy
    cases hy
    refine ⟨g1, g2, hnd, by rw [← g1]; exact e10, ?_⟩
    intro pk hpk
    exact e11 pk (by rw [g1]; exact hpk) (by rintro ⟨p, hp, -⟩; exact hnd p hp)

/-- The finalized part after loading `done`. -/
structure Loaded (s : TokenStore) (slots : List TokenAccount) (done : List Written) : Prop where
  token : ∀ w a, LastOf done w → AccountLayout w.data a → ∃ t i, (recOf s slots w.pubkey).token = some t ∧
    t.program = .tokenProgram ∧ t.pubkey = w.pubkey ∧ TokenMatches a i t ∧ s.table.index.find a.mint = some i
  mint : ∀ w sm, LastOf done w → MintLayout w.data sm → ∃ m, (recOf s slots w.pubkey).mint = some (some m) ∧
    m.program = .tokenProgram ∧ m.pubkey = w.pubkey ∧ MintMatches sm w.lamports m
  multi : ∀ w sm, LastOf done w → MultisigLayout w.data sm → ∃ m, (recOf s slots w.pubkey).multi = some m ∧
    m.program = .tokenProgram ∧ MultisigMatches sm w.lamports m
  known : ∀ w ∈ done, ∀ sm, MintLayout w.data sm → ∃ m, (recOf s slots w.pubkey).mint = some (some m)
  multi_only : ∀ pk, (recOf s slots pk).multi ≠ none → ∃ w ∈ done, w.pubkey = pk ∧ w.data.length = 355
  mint_only : ∀ pk, (recOf s slots pk).mint ≠ none → (∃ w ∈ done, w.pubkey = pk ∧ w.data.length = 82) ∨
    ∃ w ∈ done, ∃ a, AccountLayout w.data a ∧ a.mint = pk

theorem lastOf_mem {ws : List Written} {w : Written} (h : LastOf ws w) : w ∈ ws := by
  obtain ⟨l, l', rfl, -⟩ := h; simp

theorem lastOf_snoc {done : List Written} {w v : Written} (h : LastOf (done ++ [w]) v) :
    v = w ∨ (LastOf done v ∧ w.pubkey ≠ v.pubkey) := by
  obtain ⟨l, l', e, hl⟩ := h
  rcases List.eq_nil_or_concat l' with rfl | ⟨l'', u, rfl⟩
  · have := (List.append_inj' e rfl).2
    simp at this; exact .inl this.symm
  · rw [List.concat_eq_append] at e hl
    rw [← List.cons_append, ← List.append_assoc] at e
    obtain ⟨e1, e2⟩ := List.append_inj' e rfl
    simp at e2; subst e2
    exact .inr ⟨⟨l, l'', e1, fun w' hw' => hl w' (by simp [hw'])⟩, hl w (by simp)⟩

theorem loaded_empty : Loaded .empty [] [] where
  token := by rintro w a ⟨l, l', h, -⟩; simp at h
  mint := by rintro w a ⟨l, l', h, -⟩; simp at h
  multi := by rintro w a ⟨l, l', h, -⟩; simp at h
  known := by simp
  multi_only := by simp [recOf, TokenStore.empty]
  mint_only := by simp [recOf, TokenStore.empty]

theorem owned_submitted {w : Written} (h1 : w.owner = Spl.tokenId) (h2 : w.lamports ≠ 0) :
    TokenProgramOwned w.submitted .tokenProgram := ⟨h2, h1⟩

theorem honest_submitted (X : Codecs) (w : Written) : HonestData X w.submitted.account.data w.data := ⟨rfl, rfl⟩

theorem load_step {X : Codecs} {n : Nat} {s : TokenStore} {slots orig : List TokenAccount}
    (h : Inv (fun _ => True) n s slots orig) (hn : n < 2 ^ 31 - 1) {done : List Written} (hl : Loaded s slots done) {w : Written}
    (h1 : w.owner = Spl.tokenId) (h2 : w.lamports ≠ 0) :
    ∃ s' slots' orig', s.initAccount X w.submitted = .ok s' ∧ Inv (fun _ => True) (n + 1) s' slots' orig' ∧
      s'.finalizedSlot = s.finalizedSlot ∧ Loaded s' slots' (done ++ [w]) := by
  have ho := owned_submitted h1 h2
  have hd := honest_submitted X w
  have hcb := h.cbound
  obtain ⟨r, T, s', slots', orig', a1, a2, a3, a4, a5, a6, a7, a8, a9, a10, a11⟩ := init_step h hn ho hd
  refine ⟨s', slots', orig', a2, a3, a4, ?_⟩
  have hpk : w.submitted.pubkey = w.pubkey := rfl
  have hlam : w.submitted.account.lamports = w.lamports := rfl
  rw [hpk] at a11
  -- other keys
  have other : ∀ pk, pk ≠ w.pubkey → recOf s' slots' pk = recOf { s with table := T } slots pk := by
    intro pk hne
    cases r with
    | none =>
      obtain ⟨rfl, rfl⟩ := a10 rfl
      by_cases hi : T.index.find pk = s'.table.index.find pk
      · simp [recOf, hi]
      · obtain rfl := classify_none a1
        rfl
    | some x => exact (a11 x rfl).2.2.2.2 pk hne
  have grow : ∀ pk, (recOf { s with table := T } slots pk).mint ≠ none →
      (recOf s slots pk).mint ≠ none ∨ ∃ a, AccountLayout w.data a ∧ a.mint = pk := by
    intro pk hp
    by_cases hi : T.index.find pk = s.table.index.find pk
    · left
      simpa [recOf, hi] using hp
    · exact .inr (a7 pk hi)
  have keep : ∀ pk m, (recOf s slots pk).mint = some (some m) → (recOf { s with table := T } slots pk).mint = some (some m) := by
    intro pk m hp
    rw [a8 pk]
    · exact hp
    · intro e; simp [recOf, e] at hp
  have self : ∀ x, r = some x → recOf s' slots' w.pubkey = (recOf { s with table := T } slots w.pubkey).apply x :=
    fun x hx => (a11 x hx).2.2.2.1
  constructor
  · intro v a hv hla
    rcases lastOf_snoc hv with rfl | ⟨hv, hne⟩
    · obtain ⟨t, ht⟩ : ∃ t, classify X s.table v.submitted = .ok (some (.token t), (s.table.getOrCreate a.mint).2) :=
        ⟨⟨.tokenProgram, false, v.pubkey, a.owner, (s.table.getOrCreate a.mint).1, a.amount, a.state,
          a.delegate.map (fun k => (k, a.delegatedAmount)), a.isNative, a.closeAuthority, none⟩,
          (Props.C46_token_iff X s.table _ _ _ ho hd _ _).2 ⟨rfl, rfl, a, hla, by constructor <;> simp_all, rfl⟩⟩
      obtain ⟨tp, tpk, sa0, hl0, hmatch, -⟩ := (Props.C46_token_iff X s.table _ _ _ ho hd t _).1 ht
      have hsa : sa0 = a := by
        have e1 := (Spl.unpackAccount_iff _ _).2 hl0
        have e2 := (Spl.unpackAccount_iff _ _).2 hla
        rw [e1] at e2; cases e2; rfl
      subst hsa
      rw [a1] at ht
      simp only [Run.ok.injEq, Prod.mk.injEq] at ht
      obtain ⟨rfl, rfl⟩ := ht
      refine ⟨t, _, ?_, tp, tpk, hmatch, a6 _ _ (fin_getOrCreate h.fin sa0.mint (by omega)).2.2.2.2.1⟩
      rw [self _ rfl]; rfl
    · obtain ⟨t, i, e1, e2, e3, e4, e5⟩ := hl.token v a hv hla
      refine ⟨t, i, ?_, e2, e3, e4, a5 _ _ e5⟩
      rw [other _ (Ne.symm hne), (a9 _).2]; exact e1
  · intro v sm hv hla
    rcases lastOf_snoc hv with rfl | ⟨hv, hne⟩
    · obtain ⟨T', hT⟩ := (Props.C46_mint_iff X s.table _ _ _ ho hd (mintOf v.submitted .tokenProgram sm none)).2
        ⟨rfl, rfl, sm, hla, by constructor <;> rfl⟩
      rw [a1] at hT
      simp only [Run.ok.injEq, Prod.mk.injEq] at hT
      refine ⟨mintOf v.submitted .tokenProgram sm none, ?_, rfl, rfl, by constructor <;> rfl⟩
      rw [self _ hT.1]; rfl
    · obtain ⟨m, e1, e2⟩ := hl.mint v sm hv hla
      exact ⟨m, by rw [other _ (Ne.symm hne)]; exact keep _ _ e1, e2⟩
  · intro v sm hv hla
    rcases lastOf_snoc hv with rfl | ⟨hv, hne⟩
    · obtain ⟨T', hT⟩ := (Props.C46_multisig_iff X s.table _ _ _ ho hd (multisigOf v.submitted .tokenProgram sm) v.pubkey).2
        ⟨rfl, rfl, rfl, sm, hla, by constructor <;> rfl⟩
      rw [a1] at hT
      simp only [Run.ok.injEq, Prod.mk.injEq] at hT
      refine ⟨multisigOf v.submitted .tokenProgram sm, ?_, rfl, by constructor <;> rfl⟩
      rw [self _ hT.1]; rfl
    · obtain ⟨m, e1, e2⟩ := hl.multi v sm hv hla
      exact ⟨m, by rw [other _ (Ne.symm hne), (a9 _).1]; exact e1, e2⟩
  · intro v hv sm hla
    by_cases hk : v.pubkey = w.pubkey
    · have old : v ∈ done → ∃ m, (recOf s' slots' v.pubkey).mint = some (some m) := by
        intro hv
        obtain ⟨m, e1⟩ := hl.known v hv sm hla
        cases r with
        | none =>
          obtain ⟨rfl, rfl⟩ := a10 rfl
          exact ⟨m, e1⟩
        | some x =>
          rw [hk] at e1 ⊢
          rw [self x rfl]
          cases x with
          | token t => exact ⟨m, keep _ _ e1⟩
          | mint m' => exact ⟨m', rfl⟩
          | multisig m' pk => exact ⟨m, keep _ _ e1⟩
          | deleted pk => exact absurd rfl ((a11 _ rfl).2.2.1 pk)
      simp only [List.mem_append, List.mem_singleton] at hv
      rcases hv with hv | rfl
      · exact old hv
      · obtain ⟨T', hT⟩ := (Props.C46_mint_iff X s.table _ _ _ ho hd (mintOf v.submitted .tokenProgram sm none)).2
          ⟨rfl, rfl, sm, hla, by constructor <;> rfl⟩
        rw [a1] at hT
        simp only [Run.ok.injEq, Prod.mk.injEq] at hT
        refine ⟨mintOf v.submitted .tokenProgram sm none, ?_⟩
        rw [self _ hT.1]; rfl
    · simp only [List.mem_append, List.mem_singleton] at hv
      rcases hv with hv | rfl
      · obtain ⟨m, e1⟩ := hl.known v hv sm hla
        exact ⟨m, by rw [other _ hk]; exact keep _ _ e1⟩
      · exact absurd rfl hk
  · intro pk hp
    have old : (recOf s slots pk).multi ≠ none → ∃ v ∈ done ++ [w], v.pubkey = pk ∧ v.data.length = 355 := by
      intro hp
      obtain ⟨v, hv, e⟩ := hl.multi_only pk hp
      exact ⟨v, by simp [hv], e⟩
    by_cases hk : pk = w.pubkey
    · subst hk
      cases r with
      | none =>
        obtain ⟨rfl, rfl⟩ := a10 rfl
        exact old hp
      | some x =>
        rw [self x rfl] at hp
        cases x with
        | token t => exact old (by rw [← (a9 _).1]; exact hp)
        | mint m' => exact old (by rw [← (a9 _).1]; exact hp)
        | multisig m' pk =>
          obtain ⟨-, -, -, sm, hla, -⟩ := (Props.C46_multisig_iff X s.table _ _ _ ho hd m' pk).1 ⟨_, a1⟩
          exact ⟨w, by simp, rfl, hla.length⟩
        | deleted pk => exact absurd rfl ((a11 _ rfl).2.2.1 pk)
    · rw [other _ hk, (a9 _).1] at hp
      exact old hp
  · intro pk hp
    have old : (recOf { s with table := T } slots pk).mint ≠ none →
        (∃ v ∈ done ++ [w], v.pubkey = pk ∧ v.data.length = 82) ∨ ∃ v ∈ done ++ [w], ∃ a, AccountLayout v.data a ∧ a.mint = pk := by
      intro hp
      rcases grow pk hp with hp | ⟨a, hla, e⟩
      · rcases hl.mint_only pk hp with ⟨v, hv, e⟩ | ⟨v, hv, e⟩
        · exact .inl ⟨v, by simp [hv], e⟩
        · exact .inr ⟨v, by simp [hv], e⟩
      · exact .inr ⟨w, by simp, a, hla, e⟩
    by_cases hk : pk = w.pubkey
    · subst hk
      cases r with
      | none =>
        obtain rfl := classify_none a1
        obtain ⟨rfl, rfl⟩ := a10 rfl
        exact old hp
      | some x =>
        rw [self x rfl] at hp
        cases x with
        | token t => exact old hp
        | mint m' =>
          obtain ⟨-, -, sm, hla, -⟩ := (Props.C46_mint_iff X s.table _ _ _ ho hd m').1 ⟨_, a1⟩
          exact .inl ⟨w, by simp, rfl, hla.length⟩
        | multisig m' pk => exact old hp
        | deleted pk => exact absurd rfl ((a11 _ rfl).2.2.1 pk)
    · rw [other _ hk] at hp
      exact old hp

theorem load_all {X : Codecs} : ∀ (ws : List Written) {n : Nat} {s : TokenStore} {slots orig : List TokenAccount},
    Inv (fun _ => True) n s slots orig → n + ws.length < 2 ^ 31 → ∀ {done : List Written}, Loaded s slots done →
    (∀ w ∈ ws, w.owner = Spl.tokenId ∧ w.lamports ≠ 0) →
    ∃ s' slots' orig', TokenStore.run X (ws.map (fun w => TOp.init w.submitted)) s = .ok s' ∧
      Inv (fun _ => True) (n + ws.length) s' slots' orig' ∧ s'.finalizedSlot = s.finalizedSlot ∧ Loaded s' slots' (done ++ ws)
  | [], n, s, slots, orig, h, _, done, hl, _ => ⟨s, slots, orig, rfl, h, rfl, by simpa using hl⟩
  | w :: ws, n, s, slots, orig, h, hn, done, hl, hw => by
    simp only [List.length_cons] at hn
    obtain ⟨h1, h2⟩ := hw w (by simp)
    obtain ⟨s1, slots1, orig1, a1, a2, a3, a4⟩ := load_step (X := X) h (by omega) hl h1 h2
    obtain ⟨s', slots', orig', b1, b2, b3, b4⟩ := load_all (X := X) ws a2 (by omega) a4 (fun w hw' => hw w (by simp [hw']))
    refine ⟨s', slots', orig', ?_, ?_, by rw [b3, a3], by simpa using b4⟩
    · simp only [List.map_cons, TokenStore.run, TokenStore.step, a1, Run.ok_bind]; exact b1
    · simpa [Nat.add_assoc, Nat.add_comm 1] using b2

end LAM.Sim
