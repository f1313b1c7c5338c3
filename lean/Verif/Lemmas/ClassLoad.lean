import Verif.Lemmas.ClassText
/-
compile-dict reading the classes back.
-/
namespace Libmorph

variable {conv back : List Byte → List Byte}

theorem zint_int (o : List (List Byte × JVal)) (k : String) (d : Int) (n : Nat) (h : zget o k = some (.int n)) (hn : n < 2 ^ 31) :
    zint o k d = .ok (n : Int) := by
  rw [zint, h]
  simp only
  rw [if_pos (by omega)]

theorem z1251_str (o : List (List Byte × JVal)) (k : String) (s : List Byte) (h : zget o k = some (.str s)) : z1251 back o k = .ok (back s) := by
  rw [z1251, h]

/-- The members of a model. -/
def modelObj (conv : List Byte → List Byte) (s : ClassSample) : List (List Byte × JVal) :=
  [(asciiBytes "suffix", .str (conv [s.suffix.s0, s.suffix.s1])), (asciiBytes "weight", .int s.mdProd), (asciiBytes "sample", .str (conv s.sample))]

/-- The members of an ending. -/
def flexObj (conv : List Byte → List Byte) (f : MForm) : List (List Byte × JVal) := [(asciiBytes "id", .int f.1), (asciiBytes "sz", .str (conv f.2))]

/-- The members of a class. -/
def classObj (conv : List Byte → List Byte) (i : Nat) (c : ClassKey × ClassVal) : List (List Byte × JVal) :=
  [(asciiBytes "partSp", JVal.int c.1.1), (asciiBytes "rate", .int c.2.modProd), (asciiBytes "index", .int i)] ++
    (if c.2.schemeB then [(asciiBytes "accent", .str (asciiBytes "b"))] else []) ++
    [(asciiBytes "models", .arr (c.2.charSet.map (modelJson conv))), (asciiBytes "inflex", .arr (c.1.2.map (flexJson conv)))]

theorem model_get (s : ClassSample) : zget (modelObj conv s) "suffix" = some (.str (conv [s.suffix.s0, s.suffix.s1])) ∧
    zget (modelObj conv s) "weight" = some (.int s.mdProd) ∧ zget (modelObj conv s) "sample" = some (.str (conv s.sample)) := by
  refine ⟨rfl, rfl, rfl⟩

theorem flex_get (f : MForm) : zget (flexObj conv f) "id" = some (.int f.1) ∧ zget (flexObj conv f) "sz" = some (.str (conv f.2)) := ⟨rfl, rfl⟩

theorem class_get (i : Nat) (c : ClassKey × ClassVal) : zget (classObj conv i c) "partSp" = some (.int c.1.1) ∧ zget (classObj conv i c) "index" = some (.int i) ∧
    zget (classObj conv i c) "models" = some (.arr (c.2.charSet.map (modelJson conv))) ∧ zget (classObj conv i c) "inflex" = some (.arr (c.1.2.map (flexJson conv))) ∧
    (zget (classObj conv i c) "accent" = if c.2.schemeB then some (.str (asciiBytes "b")) else none) := by
  rcases c with ⟨⟨p, W⟩, ⟨cs, md, b⟩⟩
  cases b <;> refine ⟨rfl, rfl, rfl, rfl, rfl⟩

theorem asMaps_objs {α : Type} (f : α → List (List Byte × JVal)) : ∀ l : List α, asMaps (l.map fun x => JVal.obj (f x)) = some (l.map f)
  | [] => rfl
  | x :: l => by rw [List.map_cons, asMaps, asMaps_objs f l]; rfl

theorem loadModel_eq (s : ClassSample) (hw : s.mdProd < 2 ^ 31) (h1 : back (conv [s.suffix.s0, s.suffix.s1]) = [s.suffix.s0, s.suffix.s1])
    (h2 : back (conv s.sample) = s.sample) : loadModel back (modelObj conv s) = .ok ⟨s.suffix.s0, s.suffix.s1, s.mdProd, s.sample⟩ := by
  obtain ⟨g1, g2, g3⟩ := model_get (conv := conv) s
  rw [loadModel, z1251_str _ _ _ g1, z1251_str _ _ _ g3, zint_int _ _ _ _ g2 hw, h1, h2]
  have : ((s.mdProd : Int) % 2 ^ 32).toNat = s.mdProd := by omega
  show (Except.ok _ : Except LoadEnd FuzzyModel) = _
  rw [this]

theorem loadFlex_eq (f : MForm) (hf : f.1 < 256) (h : back (conv f.2) = f.2) :
    loadFlex back (flexObj conv f) = if f.2.length ≤ 30 then .ok f else .error .refused := by
  obtain ⟨g1, g2⟩ := flex_get (conv := conv) f
  rw [loadFlex, zint_int _ _ _ _ g1 (by omega), z1251_str _ _ _ g2, h]
  have h1 : ¬ ((f.1 : Int) = -1) := by omega
  have h2 : ((f.1 : Int) % 256).toNat = f.1 := by omega
  show (if (f.1 : Int) = -1 then throw LoadEnd.refused else if f.2.length > 32 - 2 then throw LoadEnd.refused else
    (Except.ok (((f.1 : Int) % 256).toNat, f.2) : Except LoadEnd (Byte × List Byte))) = _
  rw [if_neg h1, h2]
  by_cases hl : f.2.length ≤ 30
  · rw [if_neg (by omega), if_pos hl]
  · rw [if_pos (by omega), if_neg hl]; rfl

theorem mapM_ok {α β : Type} {f : α → Except LoadEnd β} {g : α → β} : ∀ (l : List α), (∀ x ∈ l, f x = .ok (g x)) → l.mapM f = .ok (l.map g)
  | [], _ => rfl
  | x :: l, h => by
    rw [List.mapM_cons, h x (by simp), mapM_ok l fun y hy => h y (by simp [hy])]
    rfl

theorem mapM_if {α β : Type} {f : α → Except LoadEnd β} {g : α → β} {P : α → Prop} [DecidablePred P] : ∀ (l : List α),
    (∀ x ∈ l, f x = if P x then .ok (g x) else .error .refused) → l.mapM f = if ∀ x ∈ l, P x then .ok (l.map g) else .error .refused
  | [], _ => by rw [if_pos (by simp)]; rfl
  | x :: l, h => by
    rw [List.mapM_cons, h x (by simp), mapM_if l fun y hy => h y (by simp [hy])]
    by_cases hx : P x
    · rw [if_pos hx]
      by_cases hl : ∀ y ∈ l, P y
      · rw [if_pos hl, if_pos (by simpa [hx] using hl)]; rfl
      · rw [if_neg hl, if_neg (by simpa [hx] using hl)]; rfl
    · have hno : ¬ ∀ y ∈ x :: l, P y := fun hh => hx (hh x (by simp))
      rw [if_neg hx, if_neg hno]; rfl

theorem mapM_map_eq {α β γ : Type} (f : β → Except LoadEnd γ) (g : α → β) (l : List α) : (l.map g).mapM f = l.mapM fun x => f (g x) := by
  induction l with
  | nil => rfl
  | cons x l ih => rw [List.map_cons, List.mapM_cons, List.mapM_cons, ih]

theorem zmaps_objs {α : Type} {o : List (List Byte × JVal)} {k : String} {f : α → List (List Byte × JVal)} {l : List α}
    (h : zget o k = some (.arr (l.map fun x => JVal.obj (f x)))) : zmaps o k = l.map f := by
  rw [zmaps, h]
  simp only
  rw [asMaps_objs]
  rfl

theorem loadClass_eq (i : Nat) (hi : i < 2 ^ 31) (c : ClassKey × ClassVal) (hf : ClassFits c) (hb : ClassBack conv back c) :
    loadClass back (classObj conv i c) = if ∀ f ∈ c.1.2, f.2.length ≤ 30 then .ok (toFuzzy c) else .error .refused := by
  obtain ⟨g1, g2, g3, g4, g5⟩ := class_get (conv := conv) i c
  have z3 : zmaps (classObj conv i c) "models" = c.2.charSet.map (modelObj conv) := zmaps_objs (f := modelObj conv) g3
  have z4 : zmaps (classObj conv i c) "inflex" = c.1.2.map (flexObj conv) := zmaps_objs (f := flexObj conv) g4
  rw [loadClass, zint_int _ _ _ _ g1 (by have := hf.partSp; omega), zint_int _ _ _ _ g2 hi, g5, z3, z4]
  have e1 : (c.2.charSet.map (modelObj conv)).mapM (loadModel back) = .ok (c.2.charSet.map fun s => ⟨s.suffix.s0, s.suffix.s1, s.mdProd, s.sample⟩) := by
    rw [mapM_map_eq]
    exact mapM_ok _ fun s hs => loadModel_eq s (hf.weight s hs) (hb.suffix s hs) (hb.sample s hs)
  have e2 : (c.1.2.map (flexObj conv)).mapM (loadFlex back) = if ∀ f ∈ c.1.2, f.2.length ≤ 30 then .ok c.1.2 else .error .refused := by
    rw [mapM_map_eq, mapM_if (g := id) (P := fun f => f.2.length ≤ 30) _ fun f h => loadFlex_eq f (hf.form f h) (hb.ending f h), List.map_id]
  have n1 : ¬ c.2.charSet.map (modelObj conv) = [] := by simpa using hf.models
  have n2 : ¬ c.1.2.map (flexObj conv) = [] := by simpa using hf.inflex
  have hp : ((c.1.1 : Int) % 256).toNat = c.1.1 := by have := hf.partSp; omega
  have ha : (match if c.2.schemeB then some (JVal.str (asciiBytes "b")) else none with | some (.str s) => decide (s = [98]) | _ => false) = c.2.schemeB := by
    cases c.2.schemeB <;> rfl
  simp only [bind, Except.bind]
  rw [if_neg n1, if_neg n2, e1, e2]
  simp only
  by_cases hl : ∀ f ∈ c.1.2, f.2.length ≤ 30
  · rw [if_pos hl, if_pos hl]
    simp only [hp, pure, Except.pure]
    rw [toFuzzy]
    congr 2
  · rw [if_neg hl, if_neg hl]

theorem mapIdx_mapM {α β : Type} {f : Nat → α → List (List Byte × JVal)} {g : List (List Byte × JVal) → Except LoadEnd β} {h : α → Except LoadEnd β} {N : Nat} :
    ∀ (l : List α) (i : Nat), i + l.length < N → (∀ j < N, ∀ x ∈ l, g (f j x) = h x) → (l.mapIdx fun j x => f (i + j) x).mapM g = l.mapM h
  | [], _, _, _ => rfl
  | x :: l, i, hi, hh => by
    rw [List.mapIdx_cons, List.mapM_cons, List.mapM_cons, Nat.add_zero, hh i (by simp at hi; omega) x (by simp)]
    have := mapIdx_mapM l (i + 1) (by simp at hi ⊢; omega) fun j hj y hy => hh j hj y (by simp [hy])
    rw [show (fun j y => f (i + (j + 1)) y) = fun j y => f (i + 1 + j) y by funext j y; congr 1; omega, this]

theorem asMaps_idx {α : Type} (f : Nat → α → List (List Byte × JVal)) (l : List α) : asMaps (l.mapIdx fun i x => JVal.obj (f i x)) = some (l.mapIdx f) := by
  have : l.mapIdx (fun i x => JVal.obj (f i x)) = (l.mapIdx f).map fun o => JVal.obj o := by
    apply List.ext_getElem?
    intro i
    simp only [List.getElem?_mapIdx, List.getElem?_map, Option.map_map]
    rfl
  rw [this, asMaps_objs (fun o => o), List.map_id']

theorem loadClasses_of {parse : List Byte → Option JVal} {text : List Byte} (m : ClassMap) (hp : parse text = some (classesJson conv m)) (hne : m ≠ [])
    (hl : m.length < 2 ^ 31) (hf : ∀ c ∈ m, ClassFits c) (hb : ∀ c ∈ m, ClassBack conv back c) :
    loadClasses parse back text = if ∀ c ∈ m, ∀ f ∈ c.1.2, f.2.length ≤ 30 then .ok (m.map toFuzzy) else .error .refused := by
  have g : zget [(asciiBytes "created", .int m.length), (asciiBytes "classes", .arr (m.mapIdx (classJson conv)))] "classes" = some (.arr (m.mapIdx (classJson conv))) := rfl
  have z : zmaps [(asciiBytes "created", .int m.length), (asciiBytes "classes", .arr (m.mapIdx (classJson conv)))] "classes" = m.mapIdx (classObj conv) := by
    rw [zmaps, g]
    simp only
    have := asMaps_idx (classObj conv) m
    rw [show (fun i x => JVal.obj (classObj conv i x)) = classJson conv from rfl] at this
    rw [this]
    rfl
  rw [loadClasses, hp, classesJson]
  simp only
  rw [z, if_neg (by simpa using hne)]
  have h := mapIdx_mapM (f := classObj conv) (g := loadClass back) (N := 2 ^ 31)
    (h := fun c : ClassKey × ClassVal => if ∀ f ∈ c.1.2, f.2.length ≤ 30 then .ok (toFuzzy c) else .error .refused) m 0 (by omega)
    fun j hj c hc => loadClass_eq j hj c (hf c hc) (hb c hc)
  simp only [Nat.zero_add] at h
  rw [show (m.mapIdx fun j x => classObj conv j x) = m.mapIdx (classObj conv) from rfl] at h
  rw [h]
  exact mapM_if (g := toFuzzy) (P := fun c : ClassKey × ClassVal => ∀ f ∈ c.1.2, f.2.length ≤ 30) m fun c _ => rfl

end Libmorph
