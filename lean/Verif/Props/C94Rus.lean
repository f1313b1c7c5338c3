import Verif.Props.C94
/-
C94: makerus, and the Russian library from its sources.
-/
namespace Libmorph
open Spec

section
variable (P : SourcePages) (F : IndexFormat)

/-- The arguments of makerus. -/
theorem makerusProgram_call {args : List (List Byte)} {ftab findex mtab mindex dir unknown nspace : List Byte} {dicts : List (List Byte)}
    (h : RusCall args ftab findex mtab mindex dir unknown nspace dicts) (d : Disk) :
    ∃ o : List Byte → List Byte, o (litBytes "flex-table") = ftab ∧ o (litBytes "flex-index") = findex ∧ o (litBytes "intr-table") = mtab ∧
      o (litBytes "intr-index") = mindex ∧ orDefault (o (litBytes "target-dir")) "./" = dir ∧ o (litBytes "unknown") = unknown ∧
      orDefault (o (litBytes "namespace")) "__libmorphrus__" = nspace ∧ makerusProgram P F args d = rusMake P F o dicts d := by
  rcases keyArgs_is rusKeys_plain args with ⟨_, hb⟩ | ⟨o, h1, _, h3, _⟩
  · exact (h.good hb).elim
  · obtain ⟨v1, d1, d2⟩ := h.dirIs
    obtain ⟨v2, n1, n2⟩ := h.nspaceIs
    refine ⟨o, (h3 _ (by decide)).unique rusKeys_plain (by decide) h.ftabIs, (h3 _ (by decide)).unique rusKeys_plain (by decide) h.findexIs,
      (h3 _ (by decide)).unique rusKeys_plain (by decide) h.mtabIs, (h3 _ (by decide)).unique rusKeys_plain (by decide) h.mindexIs, ?_,
      (h3 _ (by decide)).unique rusKeys_plain (by decide) h.unknownIs, ?_, ?_⟩
    · rw [(h3 _ (by decide)).unique rusKeys_plain (by decide) d1, orDefault_of d2]
    · rw [(h3 _ (by decide)).unique rusKeys_plain (by decide) n1, orDefault_of n2]
    · rw [makerusProgram, if_neg h.given, h1, ← h.dictsAre]

/-- Every call with good switches is one. -/
theorem rusCall_exists {args : List (List Byte)} (hne : args ≠ []) (hg : ¬ BadSwitches rusSwitches args) :
    ∃ ftab findex mtab mindex dir unknown nspace, RusCall args ftab findex mtab mindex dir unknown nspace (namesOf args) := by
  rcases keyArgs_is rusKeys_plain args with ⟨_, hb⟩ | ⟨o, h1, _, h3, _⟩
  · exact (hg hb).elim
  · have or : ∀ v (s : String), OrElse v (litBytes s) (orDefault v s) := by
      intro v s
      by_cases e : v = []
      · exact Or.inl ⟨e, by rw [orDefault, if_pos e]⟩
      · exact Or.inr ⟨e, by rw [orDefault, if_neg e]⟩
    exact ⟨_, _, _, _, _, _, _, hne, hg, h3 _ (by decide), h3 _ (by decide), h3 _ (by decide), h3 _ (by decide), ⟨_, h3 _ (by decide), or _ _⟩,
      h3 _ (by decide), ⟨_, h3 _ (by decide), or _ _⟩, rfl⟩

/-- **C94, makerus refused.**  Without arguments it prints what it is and ends with 0; with a switch it does not know or one given again, without one of the four files of
tables, without dictionaries, or when a file of tables is not there or cannot be read, it ends with 14; no file has changed. -/
theorem C94_makerus_refused (d : Disk) (args : List (List Byte)) :
    (args = [] → makerusProgram P F args d = some (.exit 0 d)) ∧
    (args ≠ [] → BadSwitches rusSwitches args → makerusProgram P F args d = some (.exit 14 d)) ∧
    ∀ ftab findex mtab mindex dir unknown nspace dicts, RusCall args ftab findex mtab mindex dir unknown nspace dicts →
      (ftab = [] ∨ findex = [] ∨ mtab = [] ∨ mindex = [] ∨ dicts = [] → makerusProgram P F args d = some (.exit 14 d)) ∧
      (d.file ftab = none ∨ (∀ b, d.file findex = some b → F.getFlex b = none) ∨ d.file mtab = none ∨ (∀ b, d.file mindex = some b → F.getMix b = none) →
        makerusProgram P F args d = some (.exit 14 d)) := by
  refine ⟨fun h => by rw [makerusProgram, if_pos h], fun hne hb => ?_, ?_⟩
  · rcases keyArgs_is rusKeys_plain args with ⟨h1, _⟩ | ⟨_, _, hg, _⟩
    · rw [makerusProgram, if_neg hne, h1]
    · exact (hg hb).elim
  · intro ftab findex mtab mindex dir unknown nspace dicts h
    obtain ⟨o, rfl, rfl, rfl, rfl, _, _, _, e⟩ := makerusProgram_call P F h d
    constructor
    · intro hx
      rw [e, rusMake]
      simp only
      rw [if_pos hx]
    · intro hx
      rw [e, rusMake]
      simp only
      split
      · rfl
      · split
        · rename_i a1 a2 a3 a4
          rcases hx with hx | hx | hx | hx
          · rw [hx] at a1; cases a1
          · obtain ⟨b, b1, b2⟩ := Option.bind_eq_some_iff.1 a2
            rw [hx b b1] at b2; cases b2
          · rw [hx] at a3; cases a3
          · obtain ⟨b, b1, b2⟩ := Option.bind_eq_some_iff.1 a4
            rw [hx b b1] at b2; cases b2
        · rfl

/-- The tables are there. -/
structure RusLoaded (F : IndexFormat) (d : Disk) (ftab findex mtab mindex : List Byte) (T : RusTabs) : Prop where
  names : ftab ≠ [] ∧ findex ≠ [] ∧ mtab ≠ [] ∧ mindex ≠ []
  ftab : d.file ftab = some T.ftab
  findex : ∃ b, d.file findex = some b ∧ F.getFlex b = some T.findex
  mtab : d.file mtab = some T.mtab
  mindex : ∃ b, d.file mindex = some b ∧ F.getMix b = some T.mindex

theorem makerusProgram_loaded {args : List (List Byte)} {ftab findex mtab mindex dir unknown nspace : List Byte} {dicts : List (List Byte)} {d : Disk} {T : RusTabs}
    (h : RusCall args ftab findex mtab mindex dir unknown nspace dicts) (ht : RusLoaded F d ftab findex mtab mindex T) (hd : dicts ≠ []) :
    makerusProgram P F args d = (rusDicts T P.from866 d.file dicts ({ plain := plainMagic }, [])).map fun r =>
        match writeFiles (unknownFile unknown r.2.2) d with
        | (false, d) => .exit 14 d
        | (true, d) =>
          if r.1 then
            match writeFiles ((rusFiles nspace T.mtab r.2.1).map fun p => (outPath dir p.1, p.2)) d with
            | (true, d) => .exit 0 d
            | (false, d) => .exit 14 d
          else .exit 14 d := by
  obtain ⟨o, o1, o2, o3, o4, o5, o6, o7, e⟩ := makerusProgram_call P F h d
  obtain ⟨⟨n1, n2, n3, n4⟩, t1, ⟨b2, t2, t2'⟩, t3, ⟨b4, t4, t4'⟩⟩ := ht
  rw [e, rusMake]
  simp only [o1, o2, o3, o4, o5, o6, o7]
  rw [if_neg (by simp [n1, n2, n3, n4, hd]), t1, t2, t3, t4]
  simp only [Option.bind_some, t2', t4']
  rfl

theorem rusLibrary_six (nspace mtab : List Byte) (st : RusState) : ∃ a b c e f g, rusLibrary nspace mtab st = [a, b, c, e, f, g] := ⟨_, _, _, _, _, _, rfl⟩

theorem rusFiles_mem (nspace mtab : List Byte) (st : RusState) (p : List Byte × List Byte) :
    p ∈ rusFiles nspace mtab st ↔ (p.1, some p.2) ∈ rusNames.zip (rusLibrary nspace mtab st) := by
  obtain ⟨n, t⟩ := p
  obtain ⟨a, b, c, e, f, g, h⟩ := rusLibrary_six nspace mtab st
  rw [rusFiles, rusNames, h]
  simp only [List.map_cons, List.map_nil, List.zip_cons_cons, List.zip_nil_right, List.drop_succ_cons, List.drop_zero, List.take_succ_cons, List.take_zero,
    List.cons_append, List.nil_append, List.mem_filterMap, List.mem_cons, List.not_mem_nil, or_false, Option.map_eq_some_iff, Prod.mk.injEq, exists_eq_or_imp]
  constructor
  · rintro (⟨_, rfl, rfl, rfl⟩ | ⟨_, rfl, rfl, rfl⟩ | ⟨_, rfl, rfl, rfl⟩ | ⟨_, rfl, rfl, rfl⟩ | ⟨_, rfl, rfl, rfl⟩ | ⟨_, rfl, ⟨_, rfl, rfl, rfl⟩⟩) <;> simp
  · rintro (⟨rfl, rfl⟩ | ⟨rfl, rfl⟩ | ⟨rfl, rfl⟩ | ⟨rfl, rfl⟩ | ⟨rfl, rfl⟩ | ⟨rfl, rfl⟩) <;> simp

theorem rusFiles_names (nspace mtab : List Byte) (st : RusState) : ((rusFiles nspace mtab st).map (·.1)).Pairwise (· ≠ ·) := by
  obtain ⟨a, b, c, e, f, g, h⟩ := rusLibrary_six nspace mtab st
  have sub : ∀ (l : List (List Byte × Option (List Byte))), ((l.filterMap fun p => p.2.map (p.1, ·)).map (·.1)).Sublist (l.map (·.1)) := by
    intro l
    induction l with
    | nil => exact List.Sublist.refl _
    | cons p l ih =>
      obtain ⟨n, t⟩ := p
      cases t with
      | none => exact ih.cons _
      | some t => exact ih.cons_cons _
  refine List.Pairwise.sublist (sub _) ?_
  rw [h]
  show (["stemtree.cpp", "lidstree.cpp", "mxTables.cpp", "flexTree.cpp", "mixTypes.cpp", "classmap.cpp"].map litBytes).Pairwise (· ≠ ·)
  decide

/-- **C94, makerus.**  Called with all it needs: a dictionary that is not there ends it with 14, and only the file of unknown words may have changed; otherwise it
writes the unknown lines and the files of the library, and ends with 0; or it comes to a file that cannot be created, and ends with 14. -/
theorem C94_makerus {args : List (List Byte)} {ftab findex mtab mindex dir unknown nspace : List Byte} {dicts : List (List Byte)} {d : Disk} {T : RusTabs}
    (h : RusCall args ftab findex mtab mindex dir unknown nspace dicts) (ht : RusLoaded F d ftab findex mtab mindex T) :
    (∀ before p after texts st unk, dicts = before ++ p :: after → before.map d.file = texts.map some → d.file p = none → rusCompile T P.from866 texts = some (st, unk) →
      ∃ d', makerusProgram P F args d = some (.exit 14 d') ∧ ∀ q, q ≠ unknown → d'.file q = d.file q) ∧
    ∀ texts st unk, dicts ≠ [] → dicts.map d.file = texts.map some → rusCompile T P.from866 texts = some (st, unk) →
      ((unknown ≠ [] → unk ≠ [] → d.creatable unknown) → (∀ p ∈ rusNames.zip (rusLibrary nspace T.mtab st), ∀ path, InDir dir p.1 path → p.2 ≠ none → d.creatable path) →
        ∃ d', makerusProgram P F args d = some (.exit 0 d') ∧ Written d d' dir unknown unk rusNames (rusLibrary nspace T.mtab st)) ∧
      (unknown ≠ [] → unk ≠ [] → d.creatable unknown = Bool.false → makerusProgram P F args d = some (.exit 14 d)) ∧
      ((unknown ≠ [] → unk ≠ [] → d.creatable unknown) → (∃ p ∈ rusNames.zip (rusLibrary nspace T.mtab st), ∃ path, InDir dir p.1 path ∧ p.2 ≠ none ∧ d.creatable path = Bool.false) →
        ∃ d', makerusProgram P F args d = some (.exit 14 d') ∧ ∀ path, path ≠ unknown → (∀ n ∈ rusNames, ¬ InDir dir n path) → d'.file path = d.file path) := by
  constructor
  · intro before p after texts st unk hdicts hb hp hc
    have hne : dicts ≠ [] := by rw [hdicts]; simp
    rw [makerusProgram_loaded P F h ht hne, hdicts, rusDicts_missing T _ _ _ _ _ _ _ hb hp]
    rw [rusCompile] at hc
    rw [hc]
    simp only [Option.map_some]
    have hu : ∀ q, q ≠ unknown → (writeFiles (unknownFile unknown unk) d).2.file q = d.file q := fun q hq =>
      writeFiles_other _ _ _ fun p hp => by rw [(unknownFile_mem hp).1]; exact Ne.symm hq
    cases hw : writeFiles (unknownFile unknown unk) d with
    | mk ok d1 =>
      rw [hw] at hu
      cases ok
      · exact ⟨d1, rfl, hu⟩
      · exact ⟨d1, rfl, hu⟩
  · intro texts st unk hne hall hc
    rw [makerusProgram_loaded P F h ht hne, rusDicts_all T _ _ _ _ _ hall]
    rw [rusCompile] at hc
    rw [hc]
    simp only [Option.map_some, if_true]
    obtain ⟨w1, w2, w3⟩ := library_writes (dir := dir) (unknown := unknown) (unk := unk) (rusFiles_mem nspace T.mtab st) (rusFiles_names nspace T.mtab st) d
    refine ⟨fun h1 h2 => ?_, fun h1 h2 h3 => ?_, fun h1 h2 => ?_⟩
    · obtain ⟨d1, d2, e1, e2, hw⟩ := w1 h1 h2
      exact ⟨d2, by rw [e1]; simp only; rw [e2], hw⟩
    · rw [w2 h1 h2 h3]
    · obtain ⟨d1, d2, e1, e2, hw⟩ := w3 h1 h2
      exact ⟨d2, by rw [e1]; simp only; rw [e2], hw⟩

/-- **C94, makerus: what can have changed.**  Whatever the arguments: it ends with 0 or 14; only the file of unknown words and the six files in the target
directory can have changed. -/
theorem C94_makerus_changed (d : Disk) {args : List (List Byte)} {e : ProgEnd} (he : makerusProgram P F args d = some e) :
    ∃ s d', e = .exit s d' ∧ (s = 0 ∨ s = 14) ∧ (d' = d ∨ ∃ ftab findex mtab mindex dir unknown nspace dicts,
      RusCall args ftab findex mtab mindex dir unknown nspace dicts ∧ ∀ path, path ≠ unknown → (∀ n ∈ rusNames, ¬ InDir dir n path) → d'.file path = d.file path) := by
  by_cases hne : args = []
  · rw [(C94_makerus_refused P F d args).1 hne] at he
    cases he
    exact ⟨0, d, rfl, Or.inl rfl, Or.inl rfl⟩
  by_cases hb : BadSwitches rusSwitches args
  · rw [(C94_makerus_refused P F d args).2.1 hne hb] at he
    cases he
    exact ⟨14, d, rfl, Or.inr rfl, Or.inl rfl⟩
  obtain ⟨ftab, findex, mtab, mindex, dir, unknown, nspace, hc⟩ := rusCall_exists hne hb
  obtain ⟨o, _, _, _, _, o5, o6, o7, hp⟩ := makerusProgram_call P F hc d
  rw [hp, rusMake] at he
  simp only [o5, o6, o7] at he
  split at he
  · cases he
    exact ⟨14, d, rfl, Or.inr rfl, Or.inl rfl⟩
  split at he
  · rename_i ftab' findex' mtab' mindex' _ _ _ _
    obtain ⟨r, _, hr⟩ := Option.map_eq_some_iff.1 he
    have hu : ∀ q, q ≠ unknown → (writeFiles (unknownFile unknown r.2.2) d).2.file q = d.file q := fun q hq =>
      writeFiles_other _ _ _ fun p hp => by rw [(unknownFile_mem hp).1]; exact Ne.symm hq
    have hl : ∀ (d : Disk) q, (∀ n ∈ rusNames, ¬ InDir dir n q) →
        (writeFiles ((rusFiles nspace mtab' r.2.1).map fun p => (outPath dir p.1, p.2)) d).2.file q = d.file q := by
      intro d q hq
      refine writeFiles_other _ _ _ fun p hp e => ?_
      obtain ⟨q', hq', rfl⟩ := List.mem_map.1 hp
      exact hq q'.1 (List.of_mem_zip ((rusFiles_mem nspace mtab' r.2.1 q').1 hq')).1 ((inDir_iff _ _ _).2 e.symm)
    cases hw : writeFiles (unknownFile unknown r.2.2) d with
    | mk ok d1 =>
      rw [hw] at hr hu
      cases ok
      · exact ⟨14, d1, hr.symm, Or.inr rfl, Or.inr ⟨_, _, _, _, _, _, _, _, hc, fun q hq _ => hu q hq⟩⟩
      · simp only at hr
        split at hr
        · have hl1 := hl d1
          cases hw2 : writeFiles ((rusFiles nspace mtab' r.2.1).map fun p => (outPath dir p.1, p.2)) d1 with
          | mk ok2 d2 =>
            rw [hw2] at hr hl1
            have hall : ∀ path, path ≠ unknown → (∀ n ∈ rusNames, ¬ InDir dir n path) → d2.file path = d.file path := fun q h1 h2 => by
              rw [← hu q h1]; exact hl1 q h2
            cases ok2
            · exact ⟨14, d2, hr.symm, Or.inr rfl, Or.inr ⟨_, _, _, _, _, _, _, _, hc, hall⟩⟩
            · exact ⟨0, d2, hr.symm, Or.inl rfl, Or.inr ⟨_, _, _, _, _, _, _, _, hc, hall⟩⟩
        · exact ⟨14, d1, hr.symm, Or.inr rfl, Or.inr ⟨_, _, _, _, _, _, _, _, hc, fun q hq _ => hu q hq⟩⟩
  · cases he
    exact ⟨14, d, rfl, Or.inr rfl, Or.inl rfl⟩

/-- **C94, a file of options.**  "@options_pack" is documented; no such file is ever read: the argument is taken for a dictionary. -/
theorem C94_pack_counterexample (d : Disk) (name : List Byte) : makerusProgram P F [64 :: name] d = some (.exit 14 d) := by
  rw [makerusProgram, if_neg (by simp), keyArgs, if_neg (by simp), keyArgs]
  simp only [rusMake]
  rw [if_pos (Or.inl trivial)]

theorem rusMake_congr {o o' : List Byte → List Byte} (h : ∀ q, q ≠ litBytes "codepage" → o q = o' q) (dicts : List (List Byte)) (d : Disk) :
    rusMake P F o dicts d = rusMake P F o' dicts d := by
  rw [rusMake, rusMake]
  simp only [h (litBytes "flex-table") (by decide), h (litBytes "flex-index") (by decide), h (litBytes "intr-table") (by decide), h (litBytes "intr-index") (by decide),
    h (litBytes "target-dir") (by decide), h (litBytes "unknown") (by decide), h (litBytes "namespace") (by decide)]

/-- **C94, the switch -codepage of makerus.**  The code page of the dictionaries cannot be chosen: a call with -codepage does what the call without it does. -/
theorem C94_codepage_counterexample (d : Disk) (pre post : List (List Byte)) (a v : List Byte) (ha : IsKey (litBytes "codepage") v a) (hne : pre ++ post ≠ [])
    (h : ∀ b ∈ pre ++ post, ∀ w, ¬ IsKey (litBytes "codepage") w b) : makerusProgram P F (pre ++ a :: post) d = makerusProgram P F (pre ++ post) d := by
  have keep : ∀ (l : List (List Byte)), (∀ b ∈ l, ∀ w, ¬ IsKey (litBytes "codepage") w b) → ∀ (o : List Byte → List Byte) names r, keyArgs rusKeys l o names = some r →
      r.1 (litBytes "codepage") = o (litBytes "codepage") := by
    intro l
    induction l with
    | nil => intro _ o names r e; cases e; rfl
    | cons b l ih =>
      intro hl o names r e
      rw [keyArgs] at e
      split at e
      · rename_i hb
        obtain ⟨o', h1, h2⟩ := Option.bind_eq_some_iff.1 e
        rw [ih (fun c hc => hl c (List.mem_cons_of_mem _ hc)) o' names r h2]
        by_cases hk : ∃ k ∈ rusKeys, ∃ w, IsKey k w b
        · obtain ⟨k, hk, w, hw⟩ := hk
          rw [keySwitch_of rusKeys_plain hk hw] at h1
          split at h1
          · cases h1
          · cases h1
            have hkc : litBytes "codepage" ≠ k := by rintro rfl; exact hl b List.mem_cons_self w hw
            simp only [if_neg hkc]
        · rw [keySwitch_none hb fun k hk' w hw => hk ⟨k, hk', w, hw⟩] at h1
          cases h1
      · exact ih (fun c hc => hl c (List.mem_cons_of_mem _ hc)) _ _ _ e
  have same : ∀ (l : List (List Byte)), (∀ b ∈ l, ∀ w, ¬ IsKey (litBytes "codepage") w b) → ∀ (o o' : List Byte → List Byte) names,
      (∀ q, q ≠ litBytes "codepage" → o q = o' q) →
      (keyArgs rusKeys l o names = none ∧ keyArgs rusKeys l o' names = none) ∨
      ∃ r r' n, keyArgs rusKeys l o names = some (r, n) ∧ keyArgs rusKeys l o' names = some (r', n) ∧ ∀ q, q ≠ litBytes "codepage" → r q = r' q := by
    intro l
    induction l with
    | nil => intro _ o o' names h; exact Or.inr ⟨o, o', names, rfl, rfl, h⟩
    | cons b l ih =>
      intro hl o o' names ho
      have hl' : ∀ b ∈ l, ∀ w, ¬ IsKey (litBytes "codepage") w b := fun c hc => hl c (List.mem_cons_of_mem _ hc)
      rw [keyArgs, keyArgs]
      split
      · rename_i hb
        by_cases hk : ∃ k ∈ rusKeys, ∃ w, IsKey k w b
        · obtain ⟨k, hk, w, hw⟩ := hk
          have hkc : k ≠ litBytes "codepage" := by rintro rfl; exact hl b List.mem_cons_self w hw
          rw [keySwitch_of rusKeys_plain hk hw, keySwitch_of rusKeys_plain hk hw, ho k hkc]
          split
          · exact Or.inl ⟨rfl, rfl⟩
          · rw [Option.bind_some, Option.bind_some]
            refine ih hl' _ _ _ fun q hq => ?_
            split
            · rfl
            · exact ho q hq
        · have hno : ∀ k ∈ rusKeys, ∀ w, ¬ IsKey k w b := fun k hk' w hw => hk ⟨k, hk', w, hw⟩
          rw [keySwitch_none hb hno, keySwitch_none hb hno]
          exact Or.inl ⟨rfl, rfl⟩
      · exact ih hl' _ _ _ ho
  rw [makerusProgram, makerusProgram, if_neg (by simp), if_neg hne, keyArgs_append, keyArgs_append]
  cases hpre : keyArgs rusKeys pre (fun _ => []) [] with
  | none => rfl
  | some r =>
    obtain ⟨o, names⟩ := r
    have ho := keep pre (fun b hb => h b (List.mem_append_left _ hb)) _ _ _ hpre
    simp only at ho
    rw [Option.bind_some, Option.bind_some, keyArgs, if_pos ha.tail.1, keySwitch_of rusKeys_plain (by decide) ha, if_neg (by simp [ho]), Option.bind_some]
    rcases same post (fun b hb => h b (List.mem_append_right _ hb)) (fun q => if q = litBytes "codepage" then v else o q) o names (fun q hq => by simp only [if_neg hq])
      with ⟨e1, e2⟩ | ⟨r, r', n, e1, e2, e3⟩
    · rw [e1, e2]
    · rw [e1, e2]
      exact rusMake_congr P F e3 n d

end

/-! ### The library from its sources -/

theorem declsOf_some {files : List (Option (List Byte))} {ds : List CDecl} (h : declsOf files = some ds) : ∀ f ∈ files, f ≠ none := by
  rw [declsOf] at h
  obtain ⟨l, hl, h0⟩ := Option.map_eq_some_iff.1 h
  clear h h0
  induction files generalizing l with
  | nil => simp
  | cons f files ih =>
    rw [List.mapM_cons] at hl
    obtain ⟨x, h1, h2⟩ := Option.bind_eq_some_iff.1 hl
    obtain ⟨y, h3, _⟩ := Option.bind_eq_some_iff.1 h2
    intro g hg
    rcases List.mem_cons.1 hg with rfl | hg
    · rintro rfl; simp at h1
    · exact ih y h3 g hg

theorem rusLibrary_linked {nspace mtab : List Byte} {st : RusState} {r : RusImages × List Byte} (h : linkRus nspace (rusLibrary nspace mtab st) = some r) :
    ∃ texts : List (List Byte), rusLibrary nspace mtab st = texts.map some ∧ texts.length = 6 := by
  rw [linkRus] at h
  obtain ⟨ds, h1, _⟩ := Option.bind_eq_some_iff.1 h
  have hs := declsOf_some h1
  obtain ⟨a, b, c, e, f, g, h⟩ := rusLibrary_six nspace mtab st
  rw [h] at hs ⊢
  obtain ⟨a', rfl⟩ := Option.ne_none_iff_exists'.1 (hs a (by simp))
  obtain ⟨b', rfl⟩ := Option.ne_none_iff_exists'.1 (hs b (by simp))
  obtain ⟨c', rfl⟩ := Option.ne_none_iff_exists'.1 (hs c (by simp))
  obtain ⟨e', rfl⟩ := Option.ne_none_iff_exists'.1 (hs e (by simp))
  obtain ⟨f', rfl⟩ := Option.ne_none_iff_exists'.1 (hs f (by simp))
  obtain ⟨g', rfl⟩ := Option.ne_none_iff_exists'.1 (hs g (by simp))
  exact ⟨[a', b', c', e', f', g'], rfl, rfl⟩

theorem written_library {d d' : Disk} {dir unknown : List Byte} {unk names : List (List Byte)} {texts : List (List Byte)} (h : Written d d' dir unknown unk names (texts.map some))
    (hl : names.length = texts.length) : names.map (fun n => d'.file (outPath dir n)) = texts.map some := by
  apply List.ext_getElem
  · simp [hl]
  · intro i h1 h2
    rw [List.getElem_map, List.getElem_map]
    have hi : i < names.length := by simpa using h1
    have hi' : i < texts.length := by omega
    refine h.library (names[i], some texts[i]) ?_ _ _ rfl ((inDir_iff _ _ _).2 rfl)
    rw [List.mem_iff_getElem]
    exact ⟨i, by simp [hi, hi'], by simp⟩

/-- **C94, the library from its sources.**  The sources of the endings and of the alternations (`src`) and the dictionaries are files; none of them is overwritten by the tables.
tfc, makeich and makerus, called one after the other, each with the files the one before has made, end with 0; the six files in the target directory, compiled and linked,
are the library that the sources describe (`Pipeline`, C68 - C80), the lines that are none are in the file of unknown words, and all other files are as they were. -/
theorem C94_build {P : SourcePages} {F : IndexFormat} (hF : IndexOk F) {src : List Byte → Option (List Byte)} {endings alternations : List Byte} {Z : RusSrc} {T : RusTabs}
    {files : List (List (List Byte))} {st : RusState} {unk : List (List Byte)} (h : Pipeline P.from866 src endings alternations Z T files st unk)
    {d : Disk} (hsrc : ∀ p b, src p = some b → d.file p = some b)
    {args1 args2 args3 : List (List Byte)} {ftab findex mtab mindex dir unknown nspace : List Byte} {dicts : List (List Byte)}
    (h1 : namesOf args1 = [endings, ftab, findex] ∧ ∀ a ∈ args1, isSwitch a = Bool.false) (h2 : namesOf args2 = [alternations, mtab, mindex] ∧ ∀ a ∈ args2, isSwitch a = Bool.false)
    (h3 : RusCall args3 ftab findex mtab mindex dir unknown nspace dicts) (hnames : ftab ≠ [] ∧ findex ≠ [] ∧ mtab ≠ [] ∧ mindex ≠ []) (hdicts : dicts ≠ [])
    (hfiles : List.Forall₂ (fun p lines => p ∉ [ftab, findex, mtab, mindex] ∧ ∃ text, d.file p = some text ∧ sourceLines P.from866 text = sourceLines id (fileOf lines)) dicts files)
    (hnew : src ftab = none ∧ src findex = none ∧ src mtab = none ∧ src mindex = none)
    (hdis : [ftab, findex, mtab, mindex].Pairwise (· ≠ ·)) (hcr : ∀ p, d.creatable p = Bool.true)
    (hs : nspace = [] ∨ CPath nspace) (hf : ∀ b ∈ T.ftab, b < 256) (hm : ∀ b ∈ T.mtab, b < 256) (hm0 : T.mtab ≠ []) (l3 : T.mtab.length < 2 ^ 32)
    (hne : st.entries ≠ []) (l4 : (st.images T.mtab).classmap.length < 2 ^ 32) (l5 : (st.images T.mtab).lidstree.length < 2 ^ 32) :
    ∃ depth d1 d2 d3, tfcProgram P F depth args1 d = .exit 0 d1 ∧ (∃ depth', ichProgram P F depth' args2 d1 = .exit 0 d2) ∧ makerusProgram P F args3 d2 = some (.exit 0 d3) ∧
      (∀ paths, List.Forall₂ (InDir dir) rusNames paths → linkRus nspace (paths.map d3.file) = some (st.images T.mtab, mixTypes)) ∧
      (unknown ≠ [] → unk ≠ [] → (∀ n ∈ rusNames, ¬ InDir dir n unknown) → d3.file unknown = some (fileOf unk)) ∧
      (∀ path, path ∉ [ftab, findex, mtab, mindex, unknown] → (∀ n ∈ rusNames, ¬ InDir dir n path) → d3.file path = d.file path) := by
  obtain ⟨dep1, t1⟩ := h.flex
  obtain ⟨dep2, t2⟩ := h.mix
  obtain ⟨t2w, t2s⟩ := ichWritten_of t2
  simp only [List.pairwise_cons, List.mem_cons, List.not_mem_nil, or_false, forall_eq_or_imp, forall_eq, List.Pairwise.nil, and_true, false_imp_iff, implies_true] at hdis
  obtain ⟨⟨n12, n13, n14⟩, ⟨n23, n24⟩, n34⟩ := hdis
  have hsrcne : ∀ q, src q = none → ∀ p b, src p = some b → p ≠ q := by
    rintro q hq p b hp rfl
    rw [hq] at hp; cases hp
  -- tfc
  obtain ⟨words, w1, _, _, _, w5⟩ := C94_tfc P F dep1 d h1.1 (fun a ha hsw => by rw [h1.2 a ha] at hsw; cases hsw)
  have hw : words = gramMapper := w1 (fun hm => by have := h1.2 _ hm; revert this; decide)
  subst hw
  have r1 := (w5 T.ftab T.findex (tfcMainIn_more _ _ hsrc (by rw [tfcMainIn_rus]; exact t1))).1 (hcr _) (hcr _)
  -- makeich
  have hsrc1 : ∀ p b, src p = some b → ((d.put ftab T.ftab).put findex (F.putFlex T.findex)).file p = some b := fun p b hp => by
    rw [put_other _ _ _ _ (hsrcne _ hnew.2.1 p b hp), put_other _ _ _ _ (hsrcne _ hnew.1 p b hp)]; exact hsrc p b hp
  obtain ⟨_, v2⟩ := C94_makeich P F dep2 ((d.put ftab T.ftab).put findex (F.putFlex T.findex)) h2.1 (fun a ha hsw => by rw [h2.2 a ha] at hsw; cases hsw) P.from866
    (by rw [if_neg]; intro hm; have := h2.2 _ hm; revert this; decide)
  have r2 := (v2 T.mtab T.mindex (ichWritten_more _ hsrc1 t2w)).1 (hcr _) (hcr _)
  generalize hd2 : (((d.put ftab T.ftab).put findex (F.putFlex T.findex)).put mtab T.mtab).put mindex (F.putMix T.mindex) = d2 at r2
  have hload : RusLoaded F d2 ftab findex mtab mindex T := by
    refine ⟨hnames, ?_, ⟨F.putFlex T.findex, ?_, hF.flex _⟩, ?_, ⟨F.putMix T.mindex, ?_, hF.mix _ t2s⟩⟩
    · rw [← hd2, put_other _ _ _ _ n14, put_other _ _ _ _ n13, put_other _ _ _ _ n12, put_same]
    · rw [← hd2, put_other _ _ _ _ n24, put_other _ _ _ _ n23, put_same]
    · rw [← hd2, put_other _ _ _ _ n34, put_same]
    · rw [← hd2, put_same]
  -- makerus
  have hcr2 : ∀ p, d2.creatable p = Bool.true := fun p => by rw [← hd2]; exact hcr p
  obtain ⟨texts, x1, x2⟩ : ∃ texts : List (List Byte), dicts.map d2.file = texts.map some ∧ texts.map (sourceLines P.from866) = (files.map fileOf).map (sourceLines id) := by
    clear h h3 hdicts
    induction hfiles with
    | nil => exact ⟨[], rfl, rfl⟩
    | cons hp _ ih =>
      obtain ⟨hno, text, a, b⟩ := hp
      obtain ⟨texts, x1, x2⟩ := ih
      simp only [List.mem_cons, List.not_mem_nil, or_false, not_or] at hno
      have a2 := a
      rw [← put_other _ _ _ _ hno.1, ← put_other _ _ _ _ hno.2.1, ← put_other _ _ _ _ hno.2.2.1, ← put_other _ _ _ _ hno.2.2.2, hd2] at a2
      exact ⟨text :: texts, by rw [List.map_cons, List.map_cons, x1, a2], by rw [List.map_cons, List.map_cons, List.map_cons, x2, b]⟩
  have hcomp : rusCompile T P.from866 texts = some (st, unk) := by
    rw [rusCompile, x2, ← rusCompile]; exact h.compiled
  obtain ⟨d3, r3, hw⟩ := ((C94_makerus P F h3 hload).2 texts st unk hdicts x1 hcomp).1 (fun _ _ => hcr2 _) (fun _ _ _ _ _ => hcr2 _)
  refine ⟨dep1, _, d2, d3, r1, ⟨dep2, r2⟩, r3, fun paths hpaths => ?_, fun a b c => hw.lines a b c, fun path hp1 hp2 => ?_⟩
  · have hlink := C80_sources h hs hf hm hm0 l3 hne l4 l5
    obtain ⟨ts, e1, e2⟩ := rusLibrary_linked hlink
    rw [e1] at hw
    have hpath : paths = rusNames.map (outPath dir) := by
      clear hw hlink
      generalize rusNames = names at hpaths
      induction hpaths with
      | nil => rfl
      | cons hp _ ih => rw [List.map_cons, ih, (inDir_iff _ _ _).1 hp]
    rw [hpath, List.map_map]
    have := written_library hw (by rw [e2]; rfl)
    rw [show (d3.file ∘ outPath dir) = fun n => d3.file (outPath dir n) from rfl, this, ← e1]
    exact hlink
  · simp only [List.mem_cons, List.not_mem_nil, or_false, not_or] at hp1
    obtain ⟨q1, q2, q3, q4, q5⟩ := hp1
    rw [hw.other path (fun e => (q5 e).elim) (fun p hp hin => (hp2 p.1 (List.of_mem_zip hp).1 hin).elim), ← hd2, put_other _ _ _ _ q4, put_other _ _ _ _ q3,
      put_other _ _ _ _ q2, put_other _ _ _ _ q1]

end Libmorph
