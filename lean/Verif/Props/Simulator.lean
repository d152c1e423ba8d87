import Verif.Lemmas.Simulator
import Verif.Lemmas.Parallel
import Verif.Props.TokenStore
import Verif.Props.Data
/-!
# Loading snapshots and following a validator: C77 to C84, C94
-/
namespace LAM.Props
open Spec AppendVec Token Sim
open TokenStore (TOp)

/-! ## An archive as a validator writes it -/

/-- Files of the slots and ids given, with a manifest that declares them. -/
def manifestOf (files : List (Nat × Nat × List Written)) : Manifest := fun slot =>
  (files.filter (fun f => f.1 = slot)).map (fun f => (f.2.1, (fileOf f.2.2).length))

/-- The path `accounts/SLOT.ID`. -/
def pathOf (slot id : Nat) : Path := [.normal "accounts".toList, .normal (toString slot ++ "." ++ toString id).toList]

def manifestPath : Path := [.normal "snapshots".toList, .normal "7".toList, .normal "7".toList]

/-- Version file, manifest, accounts. -/
def archiveOf (files : List (Nat × Nat × List Written)) : List Item :=
  .entry [.normal "version".toList] (some [49]) :: .entry manifestPath (some []) ::
    files.map (fun f => .entry (pathOf f.1 f.2.1) (some (fileOf f.2.2)))

theorem manifestPath_ok : ManifestPath manifestPath :=
  ⟨"7".toList, 7, (parseU64_iff _ _).1 (by decide +kernel), rfl⟩

theorem contains_files (files : List (Nat × Nat × List Written)) (hd : (files.map (fun f => (f.1, f.2.1))).Nodup)
    (hf : ∀ f ∈ files, f.1 < 2 ^ 64 ∧ f.2.1 < 2 ^ 64 ∧ (fileOf f.2.2).length < 2 ^ 63 ∧ ∀ w ∈ f.2.2, w.Fits) :
    Contains (manifestOf files) (files.map (fun f => .entry (pathOf f.1 f.2.1) (some (fileOf f.2.2))))
      (files.flatMap (fun f => f.2.2.map (fun w => (f.1, w)))) := by
  have key : ∀ (l : List (Nat × Nat × List Written)), (∀ f ∈ l, f ∈ files) →
      Contains (manifestOf files) (l.map (fun f => .entry (pathOf f.1 f.2.1) (some (fileOf f.2.2))))
        (l.flatMap (fun f => f.2.2.map (fun w => (f.1, w)))) := by
    intro l
    induction l with
    | nil => intro _; exact .nil
    | cons f l ih =>
      intro hl
      obtain ⟨h1, h2, h3, h4⟩ := hf f (hl f (by simp))
      refine Contains.file (id := f.2.1) (len := (fileOf f.2.2).length) ?_ ?_ (Nat.le_refl _) h3 ?_
        (ih (fun g hg => hl g (by simp [hg])))
      · exact ⟨[.normal "accounts".toList], _, rfl, (parseName_iff _ (f.1, f.2.1)).1 (C62_names_parse_back f.1 f.2.1 h1 h2)⟩
      · obtain ⟨p, q, e⟩ := List.append_of_mem (hl f (by simp))
        refine ⟨((p.filter (fun g => g.1 = f.1)).map (fun g => (g.2.1, (fileOf g.2.2).length))),
          ((q.filter (fun g => g.1 = f.1)).map (fun g => (g.2.1, (fileOf g.2.2).length))), ?_, ?_⟩
        · rw [manifestOf, e]; simp
        · intro x hx
          simp only [List.mem_map, List.mem_filter, decide_eq_true_eq] at hx
          obtain ⟨g, ⟨hg1, hg2⟩, rfl⟩ := hx
          intro hid
          rw [e, List.map_append, List.map_cons] at hd
          have := (List.nodup_append.1 hd).2.2 (g.1, g.2.1) (List.mem_map.2 ⟨g, hg1, rfl⟩) (f.1, f.2.1) (by simp)
          exact this (by rw [hg2]; simp only at hid; rw [hid])
      · have := layout_fileOf f.2.2 [] [] rfl h4
        simpa using this
  exact key files (fun f hf => hf)

theorem archiveOf_ok (files : List (Nat × Nat × List Written)) (hd : (files.map (fun f => (f.1, f.2.1))).Nodup)
    (hf : ∀ f ∈ files, f.1 < 2 ^ 64 ∧ f.2.1 < 2 ^ 64 ∧ (fileOf f.2.2).length < 2 ^ 63 ∧ ∀ w ∈ f.2.2, w.Fits) :
    WellFormedArchive (fun _ => some (manifestOf files)) (archiveOf files)
      (files.flatMap (fun f => f.2.2.map (fun w => (f.1, w)))) := by
  refine ⟨[.entry [.normal "version".toList] (some [49])], manifestPath, [], manifestOf files,
    files.map (fun f => .entry (pathOf f.1 f.2.1) (some (fileOf f.2.2))), by rw [archiveOf]; rfl, ?_, manifestPath_ok, rfl, ?_⟩
  · intro i hi
    simp only [List.mem_singleton] at hi
    refine ⟨_, _, hi, ?_, ?_⟩
    · rw [← isManifest_iff]; decide
    · rw [← isAppendVec_iff]; decide
  · exact contains_files files hd hf

/-- The mint, a token account and an account of another program, as they are written. -/
def wMint : Written := ⟨3, Toy.prog, 5, 0, Spl.tokenId, false, List.replicate 32 9, mintBytes aMint⟩
def wToken (pk : Pubkey) (amount : Nat) : Written :=
  ⟨4, pk, 7, 0, Spl.tokenId, false, List.replicate 32 8, Spl.Account.pack { splAccount with amount := amount }⟩
def wForeign : Written := ⟨5, Toy.bob, 9, 0, Toy.prog2, true, List.replicate 32 7, [1, 2, 3]⟩

/-- Two files; the token account is written before its mint. -/
def sampleFiles : List (Nat × Nat × List Written) := [(7, 1, [wToken Toy.alice 12, wForeign]), (3, 0, [wMint])]

def sampleAccounts : List (Nat × Written) := [(7, wToken Toy.alice 12), (7, wForeign), (3, wMint)]

theorem fits_of {w : Written} (h : w.writeVersion < 2 ^ 64 ∧ w.lamports < 2 ^ 64 ∧ w.rentEpoch < 2 ^ 64 ∧
    w.data.length < 2 ^ 64 ∧ w.hash.length = 32) : w.Fits := ⟨h.1, h.2.1, h.2.2.1, h.2.2.2.1, h.2.2.2.2⟩

theorem sampleFiles_fit : ∀ f ∈ sampleFiles, f.1 < 2 ^ 64 ∧ f.2.1 < 2 ^ 64 ∧ (fileOf f.2.2).length < 2 ^ 63 ∧ ∀ w ∈ f.2.2, w.Fits := by
  intro f hf
  simp only [sampleFiles, List.mem_cons, List.not_mem_nil, or_false] at hf
  rcases hf with rfl | rfl
  · refine ⟨by decide, by decide, by decide +kernel, ?_⟩
    intro w hw
    simp only [List.mem_cons, List.not_mem_nil, or_false] at hw
    rcases hw with rfl | rfl <;> exact fits_of (by decide +kernel)
  · refine ⟨by decide, by decide, by decide +kernel, ?_⟩
    intro w hw
    simp only [List.mem_cons, List.not_mem_nil, or_false] at hw
    subst hw; exact fits_of (by decide +kernel)

theorem sample_ok : WellFormedArchive (fun _ => some (manifestOf sampleFiles)) (archiveOf sampleFiles) sampleAccounts :=
  archiveOf_ok sampleFiles (by decide) sampleFiles_fit

/-! ## C77: a well-formed archive is loaded completely -/

/-- **C77**. Loading a well-formed archive gives the store exactly the accounts of the token program that are written in it,
each once, in the order of the archive, with their content; whatever the store held before. -/
theorem C77_loads_exactly (X : Codecs) (decode : Bytes → Option Manifest) (items : List Item) (ws : List (Nat × Written))
    (h : WellFormedArchive decode items ws) (s : TokenStore) :
    loadArchive X decode items s =
      TokenStore.run X (((ws.map (·.2)).filter (fun w => w.owner = Spl.tokenId)).map (fun w => TOp.init
        ⟨w.pubkey, ⟨w.lamports, .uncompressed w.data, w.owner, w.executable, w.rentEpoch⟩, 0, 0⟩)) s := by
  obtain ⟨pre, path, content, m, post, rfl, h1, h2, h3, h4⟩ := h
  have hm : isManifestFile path = true := (isManifest_iff path).2 h2
  unfold loadArchive
  rw [fromReader_skip decode pre _ h1]
  simp only [fromReader, hm, if_true, Option.bind_some, h3]
  exact loadVecs_contains X h4 s

example (s : TokenStore) : loadArchive Toy.codecs (fun _ => some (manifestOf sampleFiles)) (archiveOf sampleFiles) s =
    TokenStore.run Toy.codecs [.init (wToken Toy.alice 12).submitted, .init wMint.submitted] s := by
  have e : ((sampleAccounts.map (·.2)).filter (fun w => w.owner = Spl.tokenId)) = [wToken Toy.alice 12, wMint] := by
    decide +kernel
  rw [C77_loads_exactly _ _ _ _ sample_ok, e]
  rfl

/-! ## C78: what cannot be loaded -/

/-- **C78**. The manifest is found exactly if everything before it is neither a manifest nor `accounts/SLOT.ID`. -/
theorem C78_manifest_iff (decode : Bytes → Option Manifest) (items : List Item) (m : Manifest) (post : List Item) :
    fromReader decode items = .ok (m, post) ↔
      ∃ pre path content, items = pre ++ .entry path (some content) :: post ∧
        (∀ i ∈ pre, ∃ p c, i = .entry p c ∧ ¬ ManifestPath p ∧ ¬ AccountsPath p) ∧
        ManifestPath path ∧ decode content = some m := by
  constructor
  · intro h
    induction items with
    | nil => simp [fromReader] at h
    | cons i items ih =>
      cases i with
      | broken => simp [fromReader] at h
      | badPath => simp [fromReader] at h
      | entry path content =>
        simp only [fromReader] at h
        split at h
        · rename_i hm
          cases content with
          | none => simp at h
          | some b =>
            simp only [Option.bind_some] at h
            cases hd : decode b with
            | none => rw [hd] at h; simp at h
            | some m' =>
              rw [hd] at h
              simp only [Except.ok.injEq, Prod.mk.injEq] at h
              obtain ⟨rfl, rfl⟩ := h
              exact ⟨[], path, b, rfl, by simp, (isManifest_iff _).1 hm, hd⟩
        · rename_i hm
          split at h
          · simp at h
          · rename_i ha
            obtain ⟨pre, path', content', rfl, h1, h2, h3⟩ := ih h
            refine ⟨.entry path content :: pre, path', content', rfl, ?_, h2, h3⟩
            intro i hi
            simp only [List.mem_cons] at hi
            rcases hi with rfl | hi
            · exact ⟨path, content, rfl, by rw [← isManifest_iff]; exact hm, by rw [← isAppendVec_iff]; exact ha⟩
            · exact h1 i hi
  · rintro ⟨pre, path, content, rfl, h1, h2, h3⟩
    rw [fromReader_skip decode pre _ h1]
    simp [fromReader, (isManifest_iff path).2 h2, h3]

/-- **C78**. Without a manifest, or with account files before it, nothing is loaded. -/
theorem C78_no_manifest (X : Codecs) (decode : Bytes → Option Manifest) (items : List Item) (s : TokenStore)
    (h : ∀ pre path content post, items = pre ++ .entry path content :: post → ManifestPath path →
      ∃ p c, .entry p c ∈ pre ∧ AccountsPath p) : loadArchive X decode items s = .panic := by
  unfold loadArchive
  cases hr : fromReader decode items with
  | error e => rfl
  | ok r =>
    obtain ⟨m, post⟩ := r
    obtain ⟨pre, path, content, e, h1, h2, -⟩ := (C78_manifest_iff decode items m post).1 hr
    obtain ⟨p, c, hp, ha⟩ := h pre path (some content) post e h2
    obtain ⟨p', c', he, -, hn⟩ := h1 _ hp
    cases he
    exact absurd ha hn

example : loadArchive Toy.codecs (fun _ => some (manifestOf sampleFiles))
    [.entry (pathOf 3 0) (some []), .entry manifestPath (some [])] .empty = .panic := by decide +kernel

/-- **C78**. Every append vec that is handed out was declared in the manifest, has the declared length and the slot of its
name, and holds the bytes of its entry. -/
theorem C78_only_declared (m : Manifest) (items : List Item) (v : AppendVec) (h : .ok v ∈ archiveIter m items) :
    ∃ path content id, .entry path (some content) ∈ items ∧ AppendVecPath path v.slot id ∧ Declared m v.slot id v.currentLen ∧
      v.map.length = v.currentLen ∧ v.map.take content.length = content.take v.currentLen := by
  simp only [archiveIter, List.mem_filterMap] at h
  obtain ⟨i, hi, h⟩ := h
  cases i with
  | broken => simp at h
  | badPath => simp at h
  | entry path content =>
    simp only [Option.map_eq_some_iff] at h
    obtain ⟨n, hn, h⟩ := h
    unfold processEntry at h
    cases hk : knownLen m n.1 n.2 with
    | none => rw [hk] at h; simp at h
    | some len =>
      rw [hk] at h
      cases content with
      | none => simp at h
      | some b =>
        simp only [Except.ok.injEq] at h
        subst h
        refine ⟨path, b, n.2, hi, (pathName_iff path n).1 hn, (knownLen_iff _ _ _ _).1 hk, ?_, ?_⟩
        · simp [newFromReader]; omega
        · simp only [newFromReader]
          by_cases hl : len ≤ b.length
          · rw [Nat.sub_eq_zero_of_le hl, List.replicate_zero, List.append_nil, List.take_of_length_le]
            simp; omega
          · rw [List.take_of_length_le (by omega : b.length ≤ len), List.take_left]

example : (match archiveIter (manifestOf sampleFiles) (archiveOf sampleFiles) with
    | [.ok a, .ok b] => decide (a.slot = 7 ∧ b.slot = 3 ∧ b.currentLen = 224) | _ => false) = true := by decide +kernel

theorem bad_entry_error {m : Manifest} {post : List Item} (hb : ∃ i ∈ post, BadEntry m i) : ∃ e, .error e ∈ archiveIter m post := by
  obtain ⟨i, hi, hb⟩ := hb
  have hmem : ∀ e, (match i with
      | .broken => some (.error .io)
      | .badPath => some (.error .io)
      | .entry path content => ((fileName path).bind parseName).map (fun n => processEntry m content n.1 n.2)) =
      some (Except.error e) → Except.error e ∈ archiveIter m post := by
    intro e he
    simp only [archiveIter, List.mem_filterMap]
    exact ⟨i, hi, he⟩
  rcases hb with rfl | rfl | ⟨p, c, slot, id, rfl, hp, hn | rfl⟩
  · exact ⟨_, hmem .io rfl⟩
  · exact ⟨_, hmem .io rfl⟩
  · refine ⟨.unexpectedAppendVec, hmem _ ?_⟩
    simp [(pathName_iff p (slot, id)).2 hp, processEntry, (knownLen_none _ _ _).2 hn]
  · cases hk : knownLen m slot id with
    | none =>
      refine ⟨.unexpectedAppendVec, hmem _ ?_⟩
      simp [(pathName_iff p (slot, id)).2 hp, processEntry, hk]
    | some len =>
      refine ⟨.io, hmem _ ?_⟩
      simp [(pathName_iff p (slot, id)).2 hp, processEntry, hk]

/-- **C78**. An archive with an unreadable entry or an undeclared account file behind its manifest is not loaded. -/
theorem C78_bad_entry_fails (X : Codecs) (decode : Bytes → Option Manifest) (pre : List Item) (path : Path) (content : Bytes)
    (m : Manifest) (post : List Item) (h1 : ∀ i ∈ pre, ∃ p c, i = .entry p c ∧ ¬ ManifestPath p ∧ ¬ AccountsPath p)
    (h2 : ManifestPath path) (h3 : decode content = some m) (hb : ∃ i ∈ post, BadEntry m i) (s s' : TokenStore) :
    loadArchive X decode (pre ++ .entry path (some content) :: post) s ≠ .ok s' := by
  have hr := (C78_manifest_iff decode _ m post).2 ⟨pre, path, content, rfl, h1, h2, h3⟩
  unfold loadArchive
  rw [hr]
  simp only
  have key : ∀ (l : List (Except SnapshotError AppendVec)) (s : TokenStore), (∃ e, .error e ∈ l) → loadVecs X l s ≠ .ok s' := by
    intro l
    induction l with
    | nil => intro s ⟨e, he⟩; simp at he
    | cons r l ih =>
      intro s ⟨e, he⟩
      cases r with
      | error e' => simp [loadVecs]
      | ok v =>
        have he' : Except.error e ∈ l := by simpa using he
        intro h
        simp only [loadVecs, Run.bind_eq_ok] at h
        obtain ⟨_, -, s1, -, h⟩ := h
        exact ih s1 ⟨e, he'⟩ h
  exact key _ _ (bad_entry_error hb)

/-- An undeclared file, also in another directory. -/
example : loadArchive Toy.codecs (fun _ => some (manifestOf sampleFiles))
    (archiveOf sampleFiles ++ [.entry [.normal "old".toList, .normal "9.9".toList] (some [])]) .empty = .panic := by
  decide +kernel

/-! ## C79: missing files -/

/-- **C79**, as claimed: if an archive is loaded, all append vecs that its manifest declares were in it. -/
def C79_statement : Prop :=
  ∀ (X : Codecs) (decode : Bytes → Option Manifest) (items : List Item) (s s' : TokenStore),
    loadArchive X decode items s = .ok s' → ∀ m post, fromReader decode items = .ok (m, post) →
    ∀ slot id len, Declared m slot id len → ∃ path content, .entry path content ∈ post ∧ AppendVecPath path slot id

/-- C79 is false: nobody checks whether the declared files were seen, so an archive without them loads as if it were complete. -/
theorem C79_refuted : ¬ C79_statement := by
  intro h
  obtain ⟨path, content, h1, -⟩ := h Toy.codecs (fun _ => some (manifestOf sampleFiles)) [.entry manifestPath (some [])] .empty .empty
    (by decide +kernel) (manifestOf sampleFiles) [] (by
      rw [C78_manifest_iff]
      exact ⟨[], manifestPath, [], rfl, by simp, manifestPath_ok, rfl⟩) 3 0 224
    ((knownLen_iff _ _ _ _).1 (by decide +kernel))
  simp at h1

/-- **C79**, the part that holds: an archive that breaks off anywhere (the reader reports an
error) is not loaded. What is missing: an archive that ends early without an error of the reader. -/
theorem C79_broken_off_partial (X : Codecs) (decode : Bytes → Option Manifest) (items rest : List Item) (s s' : TokenStore) :
    loadArchive X decode (items ++ .broken :: rest) s ≠ .ok s' := by
  cases hr : fromReader decode (items ++ .broken :: rest) with
  | error e => simp [loadArchive, hr]
  | ok r =>
    obtain ⟨m, post⟩ := r
    obtain ⟨pre, path, content, e, h1, h2, h3⟩ := (C78_manifest_iff decode _ m post).1 hr
    rw [e]
    refine C78_bad_entry_fails X decode pre path content m post h1 h2 h3 ⟨.broken, ?_, .inl rfl⟩ s s'
    have hb : Item.broken ∈ pre ++ .entry path (some content) :: post := by rw [← e]; simp
    simp only [List.mem_append, List.mem_cons, reduceCtorEq, false_or] at hb
    rcases hb with hb | hb
    · obtain ⟨p, c, h, -⟩ := h1 _ hb; simp at h
    · exact hb

example : loadArchive Toy.codecs (fun _ => some (manifestOf sampleFiles)) (archiveOf sampleFiles ++ .broken :: []) .empty = .panic := by
  decide +kernel

/-! ## C80: the newest version of an account is what is read after loading -/

/-- `w` of slot `slot` is the only newest account of its public key. -/
def NewestIn (ws : List (Nat × Written)) (slot : Nat) (w : Written) : Prop :=
  (slot, w) ∈ ws ∧ ∀ x ∈ ws, x.2.pubkey = w.pubkey → x = (slot, w) ∨ x.1 < slot

/-- **C80**, as claimed: after loading an archive into an empty store, reading an account gives the content of its newest version
in the archive; nothing if that version is not of the token program. -/
def C80_statement : Prop :=
  ∀ (X : Codecs) (decode : Bytes → Option Manifest) (items : List Item) (ws : List (Nat × Written)) (s : TokenStore),
    WellFormedArchive decode items ws → Consistent (tokenOwned (ws.map (·.2))) → ws.length < 2 ^ 31 →
    loadArchive X decode items .empty = .ok s → ∀ slot w, NewestIn ws slot w →
    (w.owner = Spl.tokenId → TokenProgramContent w.data → ∃ r bs, s.getAccount w.pubkey .finalized = .ok (some r) ∧
      HonestData X r.account.data bs ∧ SameContent w.data bs) ∧
    (w.owner ≠ Spl.tokenId → s.getAccount w.pubkey .finalized = .ok none)

theorem accountLayout_unique {bs : Bytes} {a a' : Spl.Account} (h : AccountLayout bs a) (h' : AccountLayout bs a') : a = a' := by
  have e1 := (Spl.unpackAccount_iff _ _).2 h
  rw [(Spl.unpackAccount_iff _ _).2 h'] at e1
  cases e1; rfl

/-- **C80**, the part that holds: what is read is the last version of the token program in the order of the archive.
What is missing: the order of the files in the archive is arbitrary and does not follow the slots, and versions that are not of the
token program (closed accounts) are passed over. -/
theorem C80_last_partial (X : Codecs) (decode : Bytes → Option Manifest) (items : List Item) (ws : List (Nat × Written))
    (h : WellFormedArchive decode items ws) (hc : Consistent (tokenOwned (ws.map (·.2)))) (hn : ws.length < 2 ^ 31) :
    ∃ s, loadArchive X decode items .empty = .ok s ∧ ∀ w, LastOf (tokenOwned (ws.map (·.2))) w →
      TokenProgramContent w.data → ∃ r bs, s.getAccount w.pubkey .finalized = .ok (some r) ∧ r.pubkey = w.pubkey ∧
        r.account.owner = Spl.tokenId ∧ r.slot = 0 ∧ HonestData X r.account.data bs ∧ SameContent w.data bs := by
  have hlen : (tokenOwned (ws.map (·.2))).length ≤ ws.length := by
    refine Nat.le_trans (List.length_filter_le _ _) ?_
    simp
  obtain ⟨s, slots, orig, e1, e2, e3, e4⟩ := load_all (X := X) (tokenOwned (ws.map (·.2))) (inv_empty (fun _ => True))
    (by omega) loaded_empty (fun w hw => ⟨by simpa [tokenOwned] using (List.mem_filter.1 hw).2, hc.live w hw⟩)
  refine ⟨s, (C77_loads_exactly X decode items ws h .empty).trans e1, ?_⟩
  rw [List.nil_append] at e4
  intro w hw hcont
  have hwm := lastOf_mem hw
  have hr := getFinalized_eq e2.fin w.pubkey
  have hfs : s.finalizedSlot = 0 := e3
  have hga : s.getAccount w.pubkey .finalized = s.getFinalized w.pubkey := rfl
  rw [hga]
  have hmulti : w.data.length ≠ 355 → (recOf s slots w.pubkey).multi = none := by
    intro hl
    cases hm : (recOf s slots w.pubkey).multi with
    | none => rfl
    | some m =>
      obtain ⟨w', hw', hp, hl'⟩ := e4.multi_only w.pubkey (by simp [hm])
      exact absurd ((hc.one_kind w' hw' w hwm hp).symm.trans hl') hl
  rcases hcont with ⟨a, ha⟩ | ⟨sm, hm⟩ | ⟨sm, hm⟩
  · obtain ⟨t, i, f1, f2, f3, f4, f5⟩ := e4.token w a hw ha
    have hl165 := ha.length
    have h1 := hmulti (by omega)
    have h2 : (recOf s slots w.pubkey).mint = none := by
      cases hm : (recOf s slots w.pubkey).mint with
      | none => rfl
      | some m =>
        exfalso
        rcases e4.mint_only w.pubkey (by simp [hm]) with ⟨w', hw', hp, hl'⟩ | ⟨w', hw', a', ha', hp⟩
        · have := hc.one_kind w' hw' w hwm hp; omega
        · obtain ⟨w'', hw'', hp', sm, hsm⟩ := hc.mints w' hw' a' ha'
          have := hc.one_kind w'' hw'' w hwm (hp'.trans hp)
          have := hsm.length
          omega
    obtain ⟨g1, g2⟩ := hr.2.2.2.1 h1 h2 t f1
    obtain ⟨w', hw', hp, sm, hsm⟩ := hc.mints w hwm a ha
    obtain ⟨m, hm⟩ := e4.known w' hw' sm hsm
    rw [hp] at hm
    have hm' : s.mints.find i = some m := by simpa [recOf, f5] using hm
    have hmp : m.pubkey = a.mint := e2.fin.idx_inj _ _ _ (e2.fin.mints_idx i m hm') f5
    rw [g1, tokenToSolana_ok g2 (by rw [f4.mint]; exact hm')]
    have hfit := unpack_fits ((Spl.unpackAccount_iff _ _).2 ha)
    have hpack : tokenData t m.pubkey = Spl.Account.pack ⟨m.pubkey, t.owner, t.amount, t.delegate.map (·.1), t.state,
        t.isNative, (t.delegate.map (·.2)).getD 0, t.closeAuthority⟩ := by
      unfold tokenData
      cases t.program <;> simp [f4.plain]
    refine ⟨_, tokenData t m.pubkey, rfl, f3, by simp [solanaAccount, f2, Program.id], hfs, ⟨rfl, rfl⟩, .inl ⟨a,
      ⟨m.pubkey, t.owner, t.amount, t.delegate.map (·.1), t.state, t.isNative, (t.delegate.map (·.2)).getD 0, t.closeAuthority⟩,
      ha, ?_, ?_⟩⟩
    · rw [hpack]
      refine C45_pack_is_layout.1 _ ⟨by rw [f4.amount]; exact hfit.amount, by rw [f4.native]; exact hfit.native, ?_⟩
      cases hd : a.delegate with
      | none => simp [f4.noDelegate hd]
      | some k => simpa [f4.delegate k hd] using hfit.delegatedAmount
    · refine ⟨hmp.symm, f4.owner.symm, f4.amount.symm, ?_, f4.state.symm, f4.native.symm, ?_, f4.close.symm⟩
      · cases hdl : a.delegate with
        | none => simp [f4.noDelegate hdl]
        | some k => simp [f4.delegate k hdl]
      · intro hne
        cases hdl : a.delegate with
        | none => exact absurd hdl hne
        | some k => simp [f4.delegate k hdl]
  · obtain ⟨m, f1, f2, f3, f4⟩ := e4.mint w sm hw hm
    have hl82 := hm.length
    have h1 := hmulti (by omega)
    rw [hr.2.1 h1 m f1]
    have hs : sm.supply < 2 ^ 64 := by rw [← hm.supply]; exact field_lt _ _ 8
    have hpack : mintBytes m = Spl.Mint.pack sm := by
      unfold mintBytes
      cases sm
      have f5 := f4.supply; have f6 := f4.decimals; have f7 := f4.initialized; have f8 := f4.mintAuthority; have f9 := f4.freeze
      simp only at f5 f6 f7 f8 f9
      cases m.program <;> simp [f4.plain, f5, f6, f7, f8, f9]
    refine ⟨_, mintBytes m, rfl, f3, by simp [mintToSolana, solanaAccount, f2, Program.id], hfs, ⟨rfl, rfl⟩, .inr (.inl ⟨sm, hm, ?_⟩)⟩
    rw [hpack]
    exact C45_pack_is_layout.2.1 _ hs
  · obtain ⟨m, f1, f2, f3⟩ := e4.multi w sm hw hm
    obtain ⟨r, g1, g2⟩ := hr.1 m f1
    have hlen : m.signers.length ≤ 11 := (e2.fin.multis w.pubkey m f1).1
    rw [multisigToSolana_ok hlen] at g2
    cases g2
    rw [g1]
    refine ⟨_, _, rfl, rfl, by simp [solanaAccount, f2, Program.id], hfs, ⟨rfl, rfl⟩, .inr (.inr ⟨sm,
      ⟨m.m, m.n, m.isInitialized, m.signers ++ List.replicate (11 - m.signers.length) Pubkey.default⟩, hm, ?_, ?_⟩)⟩
    · exact C45_pack_is_layout.2.2 _ (by simp; omega)
    · refine ⟨f3.required.symm, f3.total.symm, f3.initialized.symm, ?_⟩
      have := realSigners_pad m.signers (by rw [f3.signers]; intro k hk; simpa using (List.mem_filter.1 hk).2) (11 - m.signers.length)
      unfold realSigners at this
      rw [this, f3.signers]

/-- **C80**. The newest version by slot is read if the versions of every account are in the archive in the order of their
slots. -/
theorem C80_newest_partial (X : Codecs) (decode : Bytes → Option Manifest) (items : List Item) (ws : List (Nat × Written))
    (h : WellFormedArchive decode items ws) (hc : Consistent (tokenOwned (ws.map (·.2)))) (hn : ws.length < 2 ^ 31)
    (hs : ws.Pairwise (fun x y => x.2.pubkey = y.2.pubkey → x.1 < y.1)) :
    ∃ s, loadArchive X decode items .empty = .ok s ∧ ∀ slot w, NewestIn ws slot w → w.owner = Spl.tokenId →
      TokenProgramContent w.data → ∃ r bs, s.getAccount w.pubkey .finalized = .ok (some r) ∧
        HonestData X r.account.data bs ∧ SameContent w.data bs := by
  obtain ⟨s, e1, e2⟩ := C80_last_partial X decode items ws h hc hn
  refine ⟨s, e1, ?_⟩
  intro slot w ⟨hw, hnew⟩ ho hcont
  obtain ⟨r, bs, f1, -, -, -, f2, f3⟩ := e2 w (by
    obtain ⟨l, l', rfl⟩ := List.append_of_mem hw
    refine ⟨tokenOwned (l.map (·.2)), tokenOwned (l'.map (·.2)), by simp [tokenOwned, ho], ?_⟩
    intro w' hw' hp
    have hm := (List.mem_filter.1 hw').1
    obtain ⟨x, hx, rfl⟩ := List.mem_map.1 hm
    have h1 := (List.pairwise_cons.1 (List.pairwise_append.1 hs).2.1).1 x hx hp.symm
    simp only at h1
    rcases hnew x (by simp [hx]) hp with h2 | h2
    · rw [h2] at h1; simp at h1
    · omega) hcont
  exact ⟨r, bs, f1, f2, f3⟩

theorem mint_layout : MintLayout wMint.data ⟨some Toy.bob, 1000, 6, true, none⟩ := C45_pack_is_layout.2.1 _ (by decide)

theorem token_layout (pk : Pubkey) {n : Nat} (h : n < 2 ^ 64) : AccountLayout (wToken pk n).data { splAccount with amount := n } :=
  C45_pack_is_layout.1 _ ⟨h, by simp [splAccount], by simp [splAccount]⟩

/-- Token accounts of the sample mint and the mint itself fit together. -/
theorem consistent_of {ws : List Written} (h : ∀ w ∈ ws, w = wMint ∨ ∃ pk n, n < 2 ^ 64 ∧ pk ≠ Toy.prog ∧ w = wToken pk n)
    (hm : wMint ∈ ws) : Consistent ws := by
  have hml := mint_layout.length
  refine ⟨?_, ?_, ?_⟩
  · intro w hw
    rcases h w hw with rfl | ⟨pk, n, -, -, rfl⟩ <;> simp [wMint, wToken]
  · intro w hw w' hw' hp
    rcases h w hw with rfl | ⟨pk, n, hn, hpk, rfl⟩ <;> rcases h w' hw' with rfl | ⟨pk', n', hn', hpk', rfl⟩
    · rfl
    · exact absurd hp.symm hpk'
    · exact absurd hp hpk
    · rw [(token_layout pk hn).length, (token_layout pk' hn').length]
  · intro w hw a ha
    rcases h w hw with rfl | ⟨pk, n, hn, hpk, rfl⟩
    · rw [ha.length] at hml; omega
    · refine ⟨wMint, hm, ?_, _, mint_layout⟩
      rw [accountLayout_unique ha (token_layout pk hn)]
      rfl

theorem sample_consistent : Consistent (tokenOwned (sampleAccounts.map (·.2))) := by
  have e : tokenOwned (sampleAccounts.map (·.2)) = [wToken Toy.alice 12, wMint] := by decide +kernel
  rw [e]
  refine consistent_of ?_ (by simp)
  intro w hw
  simp only [List.mem_cons, List.not_mem_nil, or_false] at hw
  rcases hw with rfl | rfl
  · exact .inr ⟨_, _, by decide, by decide +kernel, rfl⟩
  · exact .inl rfl

/-- In the sample the hypotheses of both hold for both accounts. -/
example : LastOf (tokenOwned (sampleAccounts.map (·.2))) (wToken Toy.alice 12) ∧ TokenProgramContent (wToken Toy.alice 12).data ∧
    NewestIn sampleAccounts 7 (wToken Toy.alice 12) ∧
    sampleAccounts.Pairwise (fun x y => x.2.pubkey = y.2.pubkey → x.1 < y.1) := by
  refine ⟨⟨[], [wMint], by decide +kernel, by decide +kernel⟩, .inl ⟨_, token_layout _ (by decide)⟩, ⟨by simp [sampleAccounts], ?_⟩, ?_⟩
  · decide +kernel
  · decide +kernel

example : ∃ s, loadArchive Toy.codecs (fun _ => some (manifestOf sampleFiles)) (archiveOf sampleFiles) .empty = .ok s ∧
    ∃ r bs, s.getAccount Toy.alice .finalized = .ok (some r) ∧ HonestData Toy.codecs r.account.data bs ∧
      SameContent (wToken Toy.alice 12).data bs := by
  obtain ⟨s, h1, h2⟩ := C80_newest_partial Toy.codecs _ _ _ sample_ok sample_consistent (by decide) (by decide +kernel)
  exact ⟨s, h1, h2 7 (wToken Toy.alice 12) ⟨by simp [sampleAccounts], by decide +kernel⟩ rfl (.inl ⟨_, token_layout _ (by decide)⟩)⟩

/-- Slot 9 comes before slot 3 in the archive. -/
def swappedFiles : List (Nat × Nat × List Written) := [(9, 0, [wToken Toy.alice 50]), (3, 1, [wToken Toy.alice 12, wMint])]

def swappedAccounts : List (Nat × Written) := [(9, wToken Toy.alice 50), (3, wToken Toy.alice 12), (3, wMint)]

/-- The amount of the token account read, if there is one. -/
def amountRead (r : Run (Option AccountData)) : Option Nat :=
  match r with
  | .ok (some a) => (match a.account.data with | .uncompressed bs => some (leNat (field bs 64 8)) | _ => none)
  | _ => none

theorem swapped_ok : WellFormedArchive (fun _ => some (manifestOf swappedFiles)) (archiveOf swappedFiles) swappedAccounts :=
  archiveOf_ok swappedFiles (by decide) (by
    intro f hf
    simp only [swappedFiles, List.mem_cons, List.not_mem_nil, or_false] at hf
    rcases hf with rfl | rfl
    · refine ⟨by decide, by decide, by decide +kernel, ?_⟩
      intro w hw
      simp only [List.mem_cons, List.not_mem_nil, or_false] at hw
      subst hw; exact fits_of (by decide +kernel)
    · refine ⟨by decide, by decide, by decide +kernel, ?_⟩
      intro w hw
      simp only [List.mem_cons, List.not_mem_nil, or_false] at hw
      rcases hw with rfl | rfl <;> exact fits_of (by decide +kernel))

/-- C80 is false: the later entry of the archive wins, not the later slot. -/
theorem C80_refuted : ¬ C80_statement := by
  intro h
  have h0 : loadArchive Toy.codecs (fun _ => some (manifestOf swappedFiles)) (archiveOf swappedFiles) .empty =
      .ok (okStore (loadArchive Toy.codecs (fun _ => some (manifestOf swappedFiles)) (archiveOf swappedFiles) .empty)) := by
    decide +kernel
  have hc : Consistent (tokenOwned (swappedAccounts.map (·.2))) := by
    have e : tokenOwned (swappedAccounts.map (·.2)) = [wToken Toy.alice 50, wToken Toy.alice 12, wMint] := by decide +kernel
    rw [e]
    refine consistent_of ?_ (by simp)
    intro w hw
    simp only [List.mem_cons, List.not_mem_nil, or_false] at hw
    rcases hw with rfl | rfl | rfl
    · exact .inr ⟨_, _, by decide, by decide +kernel, rfl⟩
    · exact .inr ⟨_, _, by decide, by decide +kernel, rfl⟩
    · exact .inl rfl
  have hl := token_layout Toy.alice (n := 50) (by decide)
  obtain ⟨r, bs, e1, e2, e3⟩ := (h Toy.codecs _ _ _ _ swapped_ok hc (by decide) h0 9 (wToken Toy.alice 50)
    ⟨by simp [swappedAccounts], by decide +kernel⟩).1 rfl (.inl ⟨_, hl⟩)
  have h1 : (okStore (loadArchive Toy.codecs (fun _ => some (manifestOf swappedFiles)) (archiveOf swappedFiles) .empty)).getAccount
      (wToken Toy.alice 50).pubkey .finalized = .ok (some ⟨Toy.alice, ⟨Spl.rentMinimum 165,
        .uncompressed (Spl.Account.pack { splAccount with amount := 12 }), Spl.tokenId, false, 18446744073709551615⟩, 0, 0⟩) := by
    decide +kernel
  rw [h1] at e1
  cases e1
  have e4 : bs = Spl.Account.pack { splAccount with amount := 12 } := by
    have := e2.1; simp only [Data.data] at this; cases this; rfl
  have hl2 : AccountLayout bs { splAccount with amount := 12 } := by rw [e4]; exact token_layout Toy.alice (n := 12) (by decide)
  rcases e3 with ⟨a, a', b1, b2, b3⟩ | ⟨m, b1, -⟩ | ⟨m, m', b1, -⟩
  · have := b3.amount
    rw [accountLayout_unique b1 hl, accountLayout_unique b2 hl2] at this
    simp at this
  · have := b1.length; rw [hl.length] at this; omega
  · have := b1.length; rw [hl.length] at this; omega

/-- The token account closed in slot 9. -/
def wClosed : Written := ⟨6, Toy.alice, 0, 0, Pubkey.default, false, List.replicate 32 6, []⟩
def closedFiles : List (Nat × Nat × List Written) := [(3, 0, [wToken Toy.alice 12, wMint]), (9, 1, [wClosed])]

/-- C80 is false also if the files are in the order of their slots: an account that was closed is read as if it still existed. -/
theorem C80_closed_refuted :
    WellFormedArchive (fun _ => some (manifestOf closedFiles)) (archiveOf closedFiles) [(3, wToken Toy.alice 12), (3, wMint), (9, wClosed)] ∧
      NewestIn [(3, wToken Toy.alice 12), (3, wMint), (9, wClosed)] 9 wClosed ∧ wClosed.owner ≠ Spl.tokenId ∧
      ∃ s, loadArchive Toy.codecs (fun _ => some (manifestOf closedFiles)) (archiveOf closedFiles) .empty = .ok s ∧
        amountRead (s.getAccount wClosed.pubkey .finalized) = some 12 := by
  refine ⟨archiveOf_ok closedFiles (by decide) ?_, ⟨by simp, by decide +kernel⟩, by decide +kernel, okStore (loadArchive Toy.codecs
    (fun _ => some (manifestOf closedFiles)) (archiveOf closedFiles) .empty), by decide +kernel, by decide +kernel⟩
  intro f hf
  simp only [closedFiles, List.mem_cons, List.not_mem_nil, or_false] at hf
  rcases hf with rfl | rfl
  · refine ⟨by decide, by decide, by decide +kernel, ?_⟩
    intro w hw
    simp only [List.mem_cons, List.not_mem_nil, or_false] at hw
    rcases hw with rfl | rfl <;> exact fits_of (by decide +kernel)
  · refine ⟨by decide, by decide, by decide +kernel, ?_⟩
    intro w hw
    simp only [List.mem_cons, List.not_mem_nil, or_false] at hw
    subst hw; exact fits_of (by decide +kernel)

/-! ## C81: loading does not panic -/

/-- **C81**. As long as the extractor reports no error, loading never panics and never hangs, whatever is in the files: garbage in
an append vec ends the reading of that append vec. -/
theorem C81_total (X : Codecs) (decode : Bytes → Option Manifest) (items : List Item) (m : Manifest) (post : List Item)
    (hm : fromReader decode items = .ok (m, post))
    (hok : ∀ i ∈ post, ¬ BadEntry m i) (hlen : ∀ slot id len, Declared m slot id len → len < 2 ^ 63)
    (hn : ((archiveIter m post).map roomFor).sum < 2 ^ 31) :
    ∃ s, loadArchive X decode items .empty = .ok s := by
  unfold loadArchive
  rw [hm]
  refine loadVecs_total _ (inv_empty (fun _ => True)) ?_ (by omega)
  intro e he
  cases e with
  | ok v =>
    obtain ⟨path, content, id, -, -, h1, h2, -⟩ := C78_only_declared m post v he
    have := hlen _ _ _ h1
    exact ⟨v, rfl, Nat.le_of_eq h2.symm, by omega⟩
  | error e =>
    exfalso
    simp only [archiveIter, List.mem_filterMap] at he
    obtain ⟨i, hi, he⟩ := he
    refine hok i hi ?_
    cases i with
    | broken => exact .inl rfl
    | badPath => exact .inr (.inl rfl)
    | entry path content =>
      simp only [Option.map_eq_some_iff] at he
      obtain ⟨n, hn', he⟩ := he
      refine .inr (.inr ⟨path, content, n.1, n.2, rfl, (pathName_iff _ _).1 hn', ?_⟩)
      unfold processEntry at he
      cases hk : knownLen m n.1 n.2 with
      | none => exact .inl ((knownLen_none _ _ _).1 hk)
      | some len =>
        rw [hk] at he
        cases content with
        | none => exact .inr rfl
        | some b => simp at he

/-- Garbage, and a file shorter than declared. -/
example : ∃ s, loadArchive Toy.codecs (fun _ => some (fun _ => [(0, 4096)]))
    [.entry manifestPath (some []), .entry (pathOf 3 0) (some (List.replicate 300 255)), .entry (pathOf 4 0) (some [])] .empty = .ok s :=
  ⟨.empty, by decide +kernel⟩

/-! ## C82: unpacked snapshots -/

/-- **C82**, as claimed: a file of the accounts directory that is named `SLOT.ID` but cannot be used is reported. -/
def C82_statement : Prop :=
  ∀ (m : Manifest) (files : List (Option (List Char) × Option Bytes)) (name : List Char) (content : Option Bytes) (slot id : Nat),
    (some name, content) ∈ files → NameOf name slot id →
    ((∀ len, ¬ Declared m slot id len) ∨ content = none ∨
      ∃ bs len, content = some bs ∧ Declared m slot id len ∧ (bs = [] ∨ bs.length < len)) →
    ∃ e, .error e ∈ unpackedIter m (some files)

theorem unpacked_eq (m : Manifest) (files : List (Option (List Char) × Option Bytes)) :
    unpackedIter m (some files) = (files.filterMap (fun f => (f.1.bind parseName).bind (fun n =>
      match openAppendVec m n.1 n.2 f.2 with | .ok v => some v | .error _ => none))).map .ok := by
  simp only [unpackedIter, iterStreams, flattenOk, id, List.append_nil]
  induction files with
  | nil => rfl
  | cons f files ih =>
    simp only [List.filterMap_cons]
    cases hp : f.1.bind parseName with
    | none => simpa using ih
    | some n =>
      simp only [Option.map_some, List.map_cons, flattenOk, Option.bind_some]
      cases openAppendVec m n.1 n.2 f.2 with
      | error e => simpa [resultIter] using ih
      | ok v => simp only [resultIter, List.map_cons, List.map_nil, List.cons_append, List.nil_append, ih]

/-- No error is ever reported for a file. -/
theorem C82_never_reports (m : Manifest) (files : List (Option (List Char) × Option Bytes)) (e : SnapshotError) :
    .error e ∉ unpackedIter m (some files) := by
  rw [unpacked_eq]
  simp

/-- C82 is false: `flatten_ok` over the results drops the errors, so that unusable files are left out silently. -/
theorem C82_refuted : ¬ C82_statement := by
  intro h
  obtain ⟨e, he⟩ := h (fun _ => []) [(some "3.0".toList, some [1])] "3.0".toList (some [1]) 3 0 (by simp)
    ((parseName_iff _ (3, 0)).1 (by decide +kernel)) (.inl (by rintro len ⟨l, l', h, -⟩; simp at h))
  exact C82_never_reports _ _ _ he

/-- **C82**, the part that holds: exactly the files that are named `SLOT.ID`, are declared and are long enough (and at most
16 GiB) are handed out, in the order of the directory, with their content; a directory that cannot be read is reported. What is
missing: files that cannot be used are dropped without an error. -/
theorem C82_usable_partial (m : Manifest) (files : List (Option (List Char) × Option Bytes)) :
    unpackedIter m none = [.error .io] ∧
    (∀ v, .ok v ∈ unpackedIter m (some files) ↔ ∃ name id, (some name, some v.map) ∈ files ∧ NameOf name v.slot id ∧
      Declared m v.slot id v.currentLen ∧ v.fileSize = v.map.length ∧ v.map ≠ [] ∧ v.currentLen ≤ v.map.length ∧
      v.map.length ≤ 2 ^ 34) ∧
    (∀ files', unpackedIter m (some (files ++ files')) = unpackedIter m (some files) ++ unpackedIter m (some files')) := by
  refine ⟨rfl, ?_, ?_⟩
  · intro v
    rw [unpacked_eq]
    simp only [List.mem_map, Except.ok.injEq, exists_eq_right, List.mem_filterMap, Option.bind_eq_some_iff]
    constructor
    · rintro ⟨⟨name, content⟩, hf, n, ⟨nm, h1, h2⟩, h3⟩
      simp only at h1 h3
      subst h1
      unfold openAppendVec at h3
      cases hk : knownLen m n.1 n.2 with
      | none => rw [hk] at h3; simp at h3
      | some len =>
        rw [hk] at h3
        cases content with
        | none => simp at h3
        | some bs =>
          simp only [Option.bind_some, newFromFile, sanitize] at h3
          by_cases c1 : bs.length = 0
          · simp [c1] at h3
          by_cases c2 : bs.length > maxFileSize
          · simp [c1, c2] at h3
          by_cases c3 : len > bs.length
          · simp [c1, c2, c3] at h3
          simp only [c1, c2, c3, if_false, if_true, Option.some.injEq] at h3
          subst h3
          refine ⟨nm, n.2, hf, (parseName_iff _ n).1 h2, (knownLen_iff _ _ _ _).1 hk, rfl, ?_, by simp only; omega, ?_⟩
          · intro e; simp only at e; simp [e] at c1
          · unfold maxFileSize at c2; simp only; omega
    · rintro ⟨name, id, hf, h1, h2, h3, h4, h5, h6⟩
      refine ⟨_, hf, (v.slot, id), ⟨name, rfl, (parseName_iff _ (v.slot, id)).2 h1⟩, ?_⟩
      have c1 : v.map.length ≠ 0 := by simpa using h4
      have c2 : ¬ v.map.length > maxFileSize := by unfold maxFileSize; omega
      have c3 : ¬ v.currentLen > v.map.length := by omega
      simp only [openAppendVec, (knownLen_iff _ _ _ _).2 h2, Option.bind_some, newFromFile, sanitize, c1, c2, c3, if_false, if_true]
      cases v
      simp only at h3
      subst h3
      rfl
  · intro files'
    simp [unpacked_eq]

/-- A directory with a usable file, an undeclared one and one that is too short. -/
example : unpackedIter (fun _ => [(0, 4), (1, 4)])
    (some [(some "3.0".toList, some [1, 2, 3, 4, 5]), (some "3.7".toList, some [1]), (some "3.1".toList, some [1])]) =
    [.ok ⟨[1, 2, 3, 4, 5], 4, 5, 3⟩] := by rw [unpacked_eq]; decide +kernel

/-! ## C94: opening unpacked snapshots -/

theorem numbered_iff (f : Option (List Char) × Option Bytes) : (f.1.bind parseU64).isSome = true ↔ Numbered f := by
  simp only [Option.isSome_iff_exists, Option.bind_eq_some_iff, Numbered, parseU64_iff]
  exact ⟨fun ⟨n, name, h⟩ => ⟨name, n, h⟩, fun ⟨name, n, h⟩ => ⟨n, name, h⟩⟩

theorem firstNumbered_iff (files : List (Option (List Char) × Option Bytes)) (content : Option Bytes) :
    (∃ name, files.find? (fun f => (f.1.bind parseU64).isSome) = some (name, content)) ↔ FirstNumbered files content := by
  simp only [List.find?_eq_some_iff_append, FirstNumbered]
  constructor
  · rintro ⟨name, h1, pre, post, rfl, h2⟩
    refine ⟨pre, name, post, rfl, (numbered_iff (name, content)).1 h1, fun f hf hn => ?_⟩
    have := h2 f hf
    rw [(numbered_iff f).2 hn] at this
    cases this
  · rintro ⟨pre, name, post, rfl, h1, h2⟩
    refine ⟨name, (numbered_iff (name, content)).2 h1, pre, post, rfl, fun f hf => ?_⟩
    cases hb : (f.1.bind parseU64).isSome with
    | true => exact (h2 f hf ((numbered_iff f).1 hb)).elim
    | false => rfl

/-- **C94**. Opening an unpacked snapshot: the manifest is that of the first entry of `snapshots` whose name is a number, there must
be a status cache, and each way to fail has its own error. -/
theorem C94_open (decode : Bytes → Option Manifest) (statusCache : Bool)
    (snapshots : Option (List (Option (List Char) × Option Bytes))) :
    (∀ m, openUnpacked decode statusCache snapshots = .ok m ↔ statusCache = true ∧ ∃ files bs, snapshots = some files ∧
      FirstNumbered files (some bs) ∧ decode bs = some m) ∧
    (openUnpacked decode statusCache snapshots = .error .noStatusCache ↔ statusCache = false) ∧
    (openUnpacked decode statusCache snapshots = .error .noSnapshotManifest ↔ statusCache = true ∧ ∃ files, snapshots = some files ∧
      ∀ f ∈ files, ¬ Numbered f) ∧
    (openUnpacked decode statusCache snapshots = .error .io ↔ statusCache = true ∧
      ∀ files, snapshots = some files → FirstNumbered files none) ∧
    (openUnpacked decode statusCache snapshots = .error .bincode ↔ statusCache = true ∧ ∃ files bs, snapshots = some files ∧
      FirstNumbered files (some bs) ∧ decode bs = none) := by
  unfold openUnpacked
  cases statusCache with
  | false => simp
  | true =>
    cases snapshots with
    | none => simp
    | some files =>
      simp only [← firstNumbered_iff]
      cases hf : files.find? (fun f => (f.1.bind parseU64).isSome) with
      | none =>
        have : ∀ f ∈ files, ¬ Numbered f := by
          intro f hm hn
          have := List.find?_eq_none.1 hf f hm
          exact this ((numbered_iff f).2 hn)
        simp [hf]
        exact fun a b hab => this (a, b) hab
      | some f =>
        have : ¬ ∀ f ∈ files, ¬ Numbered f := fun h =>
          h f (List.mem_of_find?_eq_some hf) ((numbered_iff f).1 (List.find?_some (p := fun f : Option (List Char) × Option Bytes => (f.1.bind parseU64).isSome) hf))
        obtain ⟨name, content⟩ := f
        cases content with
        | none => simp [hf]; simpa using this
        | some bs => cases hd : decode bs <;> simp [hf, hd] <;> simpa using this

/-- The status cache itself and a name that is no number are passed over. -/
example : FirstNumbered [(some "status_cache".toList, some [7]), (none, none), (some "12".toList, some [1]), (some "11".toList, some [2])]
      (some [1]) ∧
    openUnpacked (fun b => if b = [1] then some (fun _ => [(0, 4)]) else none) true
      (some [(some "status_cache".toList, some [7]), (none, none), (some "12".toList, some [1]), (some "11".toList, some [2])]) =
      .ok (fun _ => [(0, 4)]) := by
  refine ⟨(firstNumbered_iff _ _).1 ⟨some "12".toList, by decide +kernel⟩, ((C94_open _ _ _).1 _).2 ⟨rfl, _, [1], rfl,
    (firstNumbered_iff _ _).1 ⟨some "12".toList, by decide +kernel⟩, rfl⟩⟩

/-! ## C83: parallel iteration -/

/-- **C83**. If parallel iteration succeeds, the append vecs were split among at most `threads` consumers: every append vec was
given to exactly one of them, each saw its own in the order of the iterator, and none failed. -/
theorem C83_once (V C E : Type) (new : C) (on : C → V → Except E C) (threads : Nat) (pick : Nat → Nat) (items : List (Except E V))
    (cs : List C) (h : parIter new on threads pick items 0 [] = .ok (.ok cs)) :
    ∃ (vs : List V) (parts : List (List V)), items = vs.map .ok ∧ parts.flatten.Perm vs ∧ parts.length ≤ threads ∧
      (∀ part ∈ parts, part.Sublist vs) ∧ List.Forall₂ (fun c part => part.foldlM on new = .ok c) cs parts := by
  obtain ⟨hs, h1, h2, h3, h4⟩ := parIter_ok items 0 [] [] [] cs .nil (Nat.zero_le _) .nil (by simp) h
  rw [List.nil_append] at h3 h4
  have key : ∀ (cs : List C) (hs : List (List (Except E V))), TasksOf new on (cs.map .ok) hs →
      ∃ parts : List (List V), hs = parts.map (List.map .ok) ∧ List.Forall₂ (fun c part => part.foldlM on new = .ok c) cs parts := by
    intro cs
    induction cs with
    | nil =>
      intro hs h
      simp only [TasksOf, List.map_nil, List.forall₂_nil_left_iff] at h
      exact ⟨[], by simp [h], .nil⟩
    | cons c cs ih =>
      intro hs h
      cases h with
      | cons ha ht =>
        obtain ⟨vs, e1, e2⟩ := consume_ok ha.symm
        obtain ⟨parts, e3, e4⟩ := ih _ ht
        exact ⟨vs :: parts, by simp [e1, e3], .cons e2 e4⟩
  obtain ⟨parts, rfl, h6⟩ := key cs hs h1
  have hall : ∀ x ∈ items, ∃ v, Except.ok v = x := by
    intro x hx
    have := h3.mem_iff.2 hx
    simp only [List.mem_flatten, List.mem_map] at this
    obtain ⟨_, ⟨p, hp, rfl⟩, hx'⟩ := this
    obtain ⟨v, -, rfl⟩ := List.mem_map.1 hx'
    exact ⟨v, rfl⟩
  have hvs : ∃ vs : List V, items = vs.map .ok := by
    clear h3 h4 h
    induction items with
    | nil => exact ⟨[], rfl⟩
    | cons x items ih =>
      obtain ⟨v, rfl⟩ := hall x (by simp)
      obtain ⟨vs, rfl⟩ := ih (fun y hy => hall y (by simp [hy]))
      exact ⟨v :: vs, rfl⟩
  obtain ⟨vs, rfl⟩ := hvs
  have hinj : Function.Injective (Except.ok : V → Except E V) := fun a b h => by cases h; rfl
  refine ⟨vs, parts, rfl, ?_, by simpa using h2, ?_, h6⟩
  · rw [← List.map_flatten] at h3
    exact (List.map_perm_map_iff hinj).1 h3
  · intro p hp
    have := h4 _ (List.mem_map.2 ⟨p, hp, rfl⟩)
    obtain ⟨l', hl, he⟩ := List.sublist_map_iff.1 this
    rw [List.map_injective_iff.2 hinj he]
    exact hl

/-- **C83**. An error is one of the iterator or of a consumer on an append vec of the iterator; and an error of the iterator is
never swallowed. -/
theorem C83_errors (V C E : Type) (new : C) (on : C → V → Except E C) (threads : Nat) (pick : Nat → Nat)
    (items : List (Except E V)) :
    (∀ e, parIter new on threads pick items 0 [] = .ok (.error e) →
      .error e ∈ items ∨ ∃ c v, .ok v ∈ items ∧ on c v = .error e) ∧
    (∀ e, .error e ∈ items → ∀ cs, parIter new on threads pick items 0 [] ≠ .ok (.ok cs)) := by
  refine ⟨?_, ?_⟩
  · intro e h
    simpa using parIter_error items 0 [] [] [] e .nil .nil h
  · intro e he cs h
    obtain ⟨vs, -, rfl, -⟩ := C83_once V C E new on threads pick items cs h
    simp at he

/-- **C83**. With at least one thread it always ends without panicking; without threads it panics on the first append vec. -/
theorem C83_total (V C E : Type) (new : C) (on : C → V → Except E C) (pick : Nat → Nat) (items : List (Except E V)) :
    (∀ threads, 0 < threads → ∃ r, parIter new on threads pick items 0 [] = .ok r) ∧
    (items ≠ [] → parIter new on 0 pick items 0 [] = .panic) := by
  refine ⟨fun threads ht => parIter_total ht items 0 [], ?_⟩
  intro h
  cases items with
  | nil => exact absurd rfl h
  | cons v items => rfl

/-- Two consumers that collect numbers; the one that ends first gets the next number. -/
example : parIter (V := Nat) (E := Unit) [] (fun c v => .ok (c ++ [v])) 2 (fun n => n) [.ok 1, .ok 2, .ok 3, .ok 4, .ok 5] 0 [] =
    .ok (.ok [[2, 5], [1, 3, 4]]) := by
  simp [parIter, takeAt, parTask, parDrain]

/-! ## C84: the messages of the stream -/

/-- **C84**, as claimed: an account message gives the store the account with the data that the validator has. -/
def C84_statement : Prop :=
  ∀ (X : Codecs) (σ : Orders) (pubkey : Pubkey) (lamports : Nat) (d bytes : Bytes) (compression : CompressionType) (owner : Pubkey)
    (executable : Bool) (rentEpoch slot writeVersion : Nat), X.Lawful → payload X d compression = some bytes →
    ∀ r, messageCall X σ (.account pubkey lamports bytes compression owner executable rentEpoch slot writeVersion) = .ok r →
    ∃ a, r = some (.update a .processed) ∧ HonestData X a.account.data d

/-- C84 is false: data that arrives compressed is compressed again and its length is taken for the length of the data. -/
theorem C84_refuted : ¬ C84_statement := by
  intro h
  obtain ⟨a, h1, h2⟩ := h Toy.codecs plainOrders Toy.alice 1 [7, 7] _ (.lz4Fast 1) Toy.prog false 0 1 1 Toy.lawful rfl _ rfl
  simp only [Option.some.injEq, TOp.update.injEq, and_true] at h1
  subst h1
  exact absurd h2.2 (by decide)

/-- **C84**, the part that holds: the call carries the fields of the message and data that decodes to the payload of the message,
which is the data of the account if it was sent uncompressed. What is missing: data sent compressed (see C84_refuted). -/
theorem C84_account_partial (X : Codecs) (hX : X.Lawful) (σ : Orders) (pubkey : Pubkey) (lamports : Nat) (d bytes : Bytes)
    (compression : CompressionType) (owner : Pubkey) (executable : Bool) (rentEpoch slot writeVersion : Nat)
    (hp : payload X d compression = some bytes) (r : Option TOp)
    (h : messageCall X σ (.account pubkey lamports bytes compression owner executable rentEpoch slot writeVersion) = .ok r) :
    ∃ x, r = some (.update ⟨pubkey, ⟨lamports, x, owner, executable, rentEpoch⟩, slot, writeVersion⟩ .processed) ∧
      HonestData X x bytes ∧ (compression = .none → HonestData X x d) := by
  simp only [messageCall, Run.bind_eq_ok, Run.pure_eq, Run.ok.injEq] at h
  obtain ⟨x, hx, rfl⟩ := h
  have h1 := C09_data_roundtrip X hX bytes compression.method (by intro l hl; cases compression <;> cases hl) x hx
  refine ⟨x, rfl, ⟨h1.1, h1.2.1⟩, ?_⟩
  rintro rfl
  cases hp
  exact ⟨h1.1, h1.2.1⟩

example : messageCall Toy.codecs plainOrders (.account Toy.alice 1 [7, 7] .none Toy.prog false 0 3 4) =
    .ok (some (.update ⟨Toy.alice, ⟨1, .uncompressed [7, 7], Toy.prog, false, 0⟩, 3, 4⟩ .processed)) := by rfl

/-- **C84**. What the store is given: the payload itself if the message says it is uncompressed, and otherwise the payload
compressed once more at the level that the message names. -/
theorem C84_form (X : Codecs) (σ : Orders) (pubkey : Pubkey) (lamports : Nat) (bytes : Bytes) (compression : CompressionType)
    (owner : Pubkey) (executable : Bool) (rentEpoch slot writeVersion : Nat) (a : AccountData) (c : Commitment)
    (h : messageCall X σ (.account pubkey lamports bytes compression owner executable rentEpoch slot writeVersion) =
      .ok (some (.update a c))) :
    (compression = .none → a.account.data = .uncompressed bytes) ∧
    ∀ v, compression = .lz4Fast v ∨ compression = .lz4 v →
      ∃ twice, X.lz4c v bytes = some twice ∧ a.account.data = .lz4 twice bytes.length := by
  cases compression with
  | none =>
    simp only [messageCall, CompressionType.method, Data.new, Run.bind_eq_ok, Run.pure_eq, Run.ok.injEq, Option.some.injEq,
      TOp.update.injEq] at h
    obtain ⟨_, rfl, rfl, -⟩ := h
    simp
  | _ u =>
    simp only [messageCall, CompressionType.method, Data.new, Run.bind_eq_ok, Run.pure_eq, Run.ok.injEq, Option.some.injEq,
      TOp.update.injEq] at h
    obtain ⟨_, ⟨twice, h1, rfl⟩, rfl, -⟩ := h
    refine ⟨by simp, fun v hv => ?_⟩
    simp only [CompressionType.lz4Fast.injEq, CompressionType.lz4.injEq, reduceCtorEq, or_false, false_or] at hv
    subst hv
    refine ⟨twice, ?_, rfl⟩
    cases hc : X.lz4c u bytes <;> rw [hc] at h1
    · cases h1
    · simp at h1; rw [h1]

example : ∃ a, messageCall Toy.codecs plainOrders (.account Toy.alice 1 [7, 7] (.lz4Fast 1) Toy.prog false 0 3 4) =
    .ok (some (.update a .processed)) := ⟨_, rfl⟩

/-- **C84**. Of the slot messages only the confirmed and the finalized ones act, with their commitment. -/
theorem C84_slots (X : Codecs) (σ : Orders) (slot parent : Nat) (level : CommitmentLevel) :
    messageCall X σ (.slot slot parent level) = .ok (match level with
      | .confirmed => some (.slot σ ⟨slot, parent, 0⟩ .confirmed)
      | .finalized => some (.slot σ ⟨slot, parent, 0⟩ .finalized)
      | _ => none) := by
  cases level <;> rfl

/-- **C84**. Following a stream makes exactly the calls of its messages, in their order. -/
theorem C84_follow (X : Codecs) (σ : Nat → Orders) (ms : List Message) (n : Nat) (s s' : TokenStore) :
    follow X σ ms n s = .ok s' ↔ ∃ calls : List (Option TOp), calls.length = ms.length ∧
      (∀ i m c, ms[i]? = some m → calls[i]? = some c → messageCall X (σ (n + i)) m = .ok c) ∧
      TokenStore.run X (calls.filterMap id) s = .ok s' := by
  induction ms generalizing n s with
  | nil =>
    constructor
    · intro h; exact ⟨[], rfl, by simp, h⟩
    · rintro ⟨calls, h1, -, h3⟩
      obtain rfl := List.length_eq_zero_iff.1 h1
      exact h3
  | cons m ms ih =>
    simp only [follow]
    constructor
    · intro h
      rw [Run.bind_eq_ok] at h
      obtain ⟨c, hc, h⟩ := h
      have hcalls : ∀ calls : List (Option TOp),
          (∀ i m c, ms[i]? = some m → calls[i]? = some c → messageCall X (σ (n + 1 + i)) m = .ok c) →
          ∀ i m' c', (m :: ms)[i]? = some m' → (c :: calls)[i]? = some c' → messageCall X (σ (n + i)) m' = .ok c' := by
        intro calls e2 i m' c' hm' hc'
        cases i with
        | zero => simp at hm' hc'; subst hm' hc'; exact hc
        | succ i =>
          have := e2 i m' c' (by simpa using hm') (by simpa using hc')
          rwa [show n + 1 + i = n + (i + 1) by omega] at this
      cases c with
      | none =>
        obtain ⟨calls, e1, e2, e3⟩ := (ih (n + 1) s).1 h
        exact ⟨none :: calls, by simp [e1], hcalls calls e2, by simpa using e3⟩
      | some o =>
        simp only [Run.bind_eq_ok] at h
        obtain ⟨s1, hs1, h⟩ := h
        obtain ⟨calls, e1, e2, e3⟩ := (ih (n + 1) s1).1 h
        exact ⟨some o :: calls, by simp [e1], hcalls calls e2, by simpa [TokenStore.run, hs1] using e3⟩
    · rintro ⟨calls, h1, h2, h3⟩
      cases calls with
      | nil => simp at h1
      | cons c calls =>
        have hc := h2 0 m c rfl rfl
        simp only [Nat.add_zero] at hc
        rw [hc, Run.ok_bind]
        have hrest : ∀ i m c, ms[i]? = some m → calls[i]? = some c → messageCall X (σ (n + 1 + i)) m = .ok c := by
          intro i m' c' hm' hc'
          have := h2 (i + 1) m' c' (by simpa using hm') (by simpa using hc')
          rwa [show n + (i + 1) = n + 1 + i by omega] at this
        cases c with
        | none => exact (ih (n + 1) s).2 ⟨calls, by simpa using h1, hrest, by simpa using h3⟩
        | some o =>
          simp only [List.filterMap_cons, id, TokenStore.run, Run.bind_eq_ok] at h3
          obtain ⟨s1, hs1, h3⟩ := h3
          simp only [hs1, Run.ok_bind]
          exact (ih (n + 1) s1).2 ⟨calls, by simpa using h1, hrest, h3⟩

/-- An account of another program, a slot that is only processed, and a finalized slot. -/
example : ∃ s, follow Toy.codecs (fun _ => plainOrders)
    [.account Toy.bob 1 [7] .none Toy.prog false 0 3 4, .slot 3 2 .processed, .other, .slot 3 2 .finalized] 0 .empty = .ok s ∧
    s.finalizedSlot = 3 :=
  ⟨okStore (follow Toy.codecs (fun _ => plainOrders)
    [.account Toy.bob 1 [7] .none Toy.prog false 0 3 4, .slot 3 2 .processed, .other, .slot 3 2 .finalized] 0 .empty),
    by decide +kernel, by decide +kernel⟩

end LAM.Props
