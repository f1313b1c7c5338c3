import Verif.Spec.MakeClasses
import Verif.Props.C44
import Mathlib.Data.List.Perm.Basic
import Mathlib.Data.List.Flatten
/-
Lemmas about the derivation of classes: order of forms, reading, the loop of `Build`, the stem.
-/
namespace Libmorph

/-! ### The order of forms -/

theorem MForm.lt_iff {a b : MForm} : a.lt b = true ↔ a.1 < b.1 ∨ a.1 = b.1 ∧ bytesLt a.2 b.2 = true := by
  simp [MForm.lt]

theorem MForm.lt_irrefl (a : MForm) : a.lt a = false := by simp [MForm.lt, bytesLt_irrefl]

theorem MForm.lt_trans {a b c : MForm} (h1 : a.lt b = true) (h2 : b.lt c = true) : a.lt c = true := by
  rw [MForm.lt_iff] at *
  rcases h1 with h1 | ⟨h1, h1'⟩ <;> rcases h2 with h2 | ⟨h2, h2'⟩
  · left; omega
  · left; omega
  · left; omega
  · exact .inr ⟨by omega, bytesLt_trans h1' h2'⟩

theorem MForm.lt_tri (a b : MForm) : a.lt b = true ∨ b.lt a = true ∨ a = b := by
  simp only [MForm.lt_iff]
  rcases Nat.lt_trichotomy a.1 b.1 with h | h | h
  · exact .inl (.inl h)
  · rcases bytesLt_tri a.2 b.2 with h' | h' | h'
    · exact .inl (.inr ⟨h, h'⟩)
    · exact .inr (.inl (.inr ⟨h.symm, h'⟩))
    · exact .inr (.inr (Prod.ext h h'))
  · exact .inr (.inl (.inl h))

theorem MForm.lt_asymm {a b : MForm} (h : a.lt b = true) : b.lt a = false := by
  cases hb : b.lt a with
  | false => rfl
  | true => exact absurd (MForm.lt_trans h hb) (by simp [MForm.lt_irrefl])

/-- Not after. -/
def MForm.Le (a b : MForm) : Prop := b.lt a = false

theorem MForm.le_trans {a b c : MForm} (h1 : a.Le b) (h2 : b.Le c) : a.Le c := by
  unfold MForm.Le at *
  cases hc : c.lt a with
  | false => rfl
  | true =>
    rcases MForm.lt_tri a b with h | h | rfl
    · exact absurd (MForm.lt_trans hc h) (by simp [h2])
    · simp [h1] at h
    · simp [hc] at h2

theorem MForm.le_total (a b : MForm) : a.Le b ∨ b.Le a := by
  unfold MForm.Le
  cases h : b.lt a with
  | false => exact .inl rfl
  | true => exact .inr (MForm.lt_asymm h)

theorem MForm.le_antisymm {a b : MForm} (h1 : a.Le b) (h2 : b.Le a) : a = b := by
  unfold MForm.Le at *
  rcases MForm.lt_tri a b with h | h | h
  · simp [h2] at h
  · simp [h1] at h
  · exact h

theorem MForm.le_iff {a b : MForm} : a.Le b ↔ a.1 < b.1 ∨ a.1 = b.1 ∧ bytesLt b.2 a.2 = false := by
  unfold MForm.Le
  cases h : b.lt a with
  | false =>
    simp only [true_iff]
    rcases MForm.lt_tri a b with h' | h' | rfl
    · rw [MForm.lt_iff] at h'
      rcases h' with h' | ⟨h', h2⟩
      · exact .inl h'
      · exact .inr ⟨h', bytesLt_asymm h2⟩
    · simp [h] at h'
    · exact .inr ⟨rfl, bytesLt_irrefl _⟩
  | true =>
    rw [MForm.lt_iff] at h
    simp only [Bool.true_eq_false, false_iff]
    rintro (h' | ⟨h', h2⟩)
    · omega
    · rcases h with h | ⟨_, h⟩
      · omega
      · simp [h2] at h

instance : DecidableRel MForm.Le := fun a b => inferInstanceAs (Decidable (b.lt a = false))
instance : Std.Total MForm.Le := ⟨MForm.le_total⟩
instance : IsTrans MForm MForm.Le := ⟨fun _ _ _ => MForm.le_trans⟩

theorem sortForms_perm (fs : List MForm) : (sortForms fs).Perm fs := List.perm_insertionSort _ _

theorem sortForms_sorted (fs : List MForm) : (sortForms fs).Pairwise MForm.Le :=
  List.pairwise_insertionSort MForm.Le fs

/-! ### Reading the buffer -/

theorem readLow_text {low : Byte → Byte} (hl : LowOk low) (f p : List Byte) (h0 : 0 ∉ f) :
    readLow low (f ++ 0 :: p) = if 45 ∈ f.map low then some none else some (some (f.map low, p)) := by
  induction f with
  | nil => simp [readLow, (hl 0).2 rfl]
  | cons c f ih =>
    simp only [List.mem_cons, not_or] at h0
    have hc : low c ≠ 0 := fun h => h0.1 ((hl c).1 h).symm
    simp only [List.cons_append, readLow, hc, if_false]
    by_cases h45 : low c = 45
    · simp [h45]
    · rw [if_neg h45, ih h0.2]
      simp only [List.map_cons, List.mem_cons]
      by_cases h : 45 ∈ f.map low
      · simp [h]
      · have : ¬ (45 = low c ∨ 45 ∈ f.map low) := by rintro (h' | h'); exacts [h45 h'.symm, h h']
        simp [h, this, show ¬ 45 = low c from fun h' => h45 h'.symm]

theorem readLows_packed {low : Byte → Byte} (hl : LowOk low) : ∀ (fs : List (List Byte)) (room : Nat) (p : List Byte),
    (∀ f ∈ fs, 0 ∉ f) → fs.length ≤ room →
    ((∃ f ∈ fs, 45 ∈ f.map low) → readLows low room fs.length (packed fs ++ p) = some none) ∧
    ((¬ ∃ f ∈ fs, 45 ∈ f.map low) → readLows low room fs.length (packed fs ++ p) = some (some (fs.map (·.map low), p)))
  | [], room, p, _, _ => by simp [readLows, packed]
  | f :: fs, 0, p, _, h => by simp at h
  | f :: fs, room + 1, p, h0, h => by
    have ih := readLows_packed hl fs room p (fun g hg => h0 g (by simp [hg])) (by simpa using h)
    have hp : packed (f :: fs) ++ p = f ++ 0 :: (packed fs ++ p) := by simp [packed]
    rw [hp, List.length_cons]
    simp only [readLows, readLow_text hl f _ (h0 f (by simp))]
    by_cases h45 : 45 ∈ f.map low
    · refine ⟨fun _ => by simp only [h45, if_true], fun hn => absurd ⟨f, by simp, h45⟩ hn⟩
    · simp only [h45, if_false]
      constructor
      · rintro ⟨g, hg, hg'⟩
        simp only [List.mem_cons] at hg
        rcases hg with rfl | hg
        · exact absurd hg' h45
        · rw [ih.1 ⟨g, hg, hg'⟩]; rfl
      · intro hn
        rw [ih.2 (fun ⟨g, hg, hg'⟩ => hn ⟨g, by simp [hg], hg'⟩)]
        rfl

/-! ### The loop of `Build` -/

theorem packed_append' (a b : List (List Byte)) : packed (a ++ b) = packed a ++ packed b := by simp [packed]

/-- A step of `Build` meets a form that makes the lexeme unfit. -/
def Unfit (low : Byte → Byte) (F : Nat → List (List Byte)) (e : Nat × Bool) : Prop :=
  (e.2 = true ∧ F e.1 = []) ∨ ∃ f ∈ F e.1, 45 ∈ f.map low

theorem buildLoop_spec {low : Byte → Byte} (hl : LowOk low) {M : Morpho} {x : Nat} {F : Nat → List (List Byte)} :
    ∀ (ids : List (Nat × Bool)) (buf : List Byte) (acc : List MForm), M.Gives x (ids.map (·.1)) F →
    (packed (ids.flatMap fun e => F e.1)).length + 1 ≤ buf.length → acc.length + (ids.flatMap fun e => F e.1).length ≤ 512 →
    ((∃ e ∈ ids, Unfit low F e) → buildLoop low M x ids buf acc = .done none) ∧
    ((¬ ∃ e ∈ ids, Unfit low F e) → buildLoop low M x ids buf acc =
      .done (some (acc ++ ids.flatMap fun e => (F e.1).map fun f => (e.1, f.map low))))
  | [], buf, acc, _, _, _ => by simp [buildLoop]
  | (i, must) :: ids, buf, acc, hg, hb, hn => by
    obtain ⟨hB, h0⟩ := hg i (by simp)
    have hne : buf ≠ [] := by rintro rfl; simp at hb
    rw [List.flatMap_cons, packed_append', List.length_append] at hb
    rw [List.flatMap_cons, List.length_append] at hn
    change (packed (F i)).length + _ + 1 ≤ _ at hb
    change _ + ((F i).length + _) ≤ _ at hn
    obtain ⟨o1, o2, -⟩ := hB buf hne
    have hg' : M.Gives x (ids.map (·.1)) F := fun j hj => hg j (by simp only [List.map_cons, List.mem_cons]; exact .inr hj)
    -- what BuildForm answers
    obtain ⟨out, rest, hout, hsplit, hrest⟩ : ∃ out rest, M.build buf x i = some (((F i).length : Int), some out) ∧
        out = packed (F i) ++ rest ∧ (packed (ids.flatMap fun e => F e.1)).length + 1 ≤ rest.length := by
      by_cases hF : F i = []
      · refine ⟨buf, buf, ?_, by simp [hF, packed], by simp only [hF, packed] at hb; simpa [packed] using hb⟩
        rw [o1 hF trivial, hF]; rfl
      · refine ⟨_, 0 :: buf.drop ((packed (F i)).length + 1), o2 hF trivial (by omega), rfl, ?_⟩
        simp only [List.length_cons, List.length_drop]; omega
    have hread := readLows_packed hl (F i) (0x200 - acc.length) rest h0 (by omega)
    simp only [buildLoop, hout]
    rw [if_neg (by omega)]
    by_cases hmiss : must = true ∧ F i = []
    · rw [if_pos ⟨by simp [hmiss.2], hmiss.1⟩]
      exact ⟨fun _ => rfl, fun h => absurd ⟨(i, must), by simp, .inl hmiss⟩ h⟩
    · rw [if_neg (by
        rintro ⟨h1, h2⟩
        exact hmiss ⟨h2, List.length_eq_zero_iff.1 (by exact_mod_cast h1)⟩)]
      simp only [Int.toNat_natCast, Option.getD_some, hsplit]
      by_cases h45 : ∃ f ∈ F i, 45 ∈ f.map low
      · rw [hread.1 h45]
        exact ⟨fun _ => rfl, fun h => absurd ⟨(i, must), by simp, .inr h45⟩ h⟩
      · rw [hread.2 h45]
        have ih := buildLoop_spec hl ids rest (acc ++ ((F i).map (·.map low)).map fun w => (i, w)) hg' hrest (by simp at hn ⊢; omega)
        constructor
        · rintro ⟨e, he, hu⟩
          simp only [List.mem_cons] at he
          rcases he with rfl | he
          · rcases hu with hu | hu
            · exact absurd hu hmiss
            · exact absurd hu h45
          · exact ih.1 ⟨e, he, hu⟩
        · intro h
          have := ih.2 (fun ⟨e, he, hu⟩ => h ⟨e, by simp [he], hu⟩)
          simp only [] at this ⊢
          rw [this]
          simp [List.map_map, Function.comp_def]

/-! ### The order of asking -/

theorem askOrder_perm : ∀ (n : Nat) (as bs : List Nat), as.length + bs.length ≤ n → (∀ a ∈ as, a ∉ bs) →
    (askOrder n as bs).Perm (as.map (·, true) ++ bs.map (·, false))
  | 0, as, bs, h, _ => by
    have h1 : as = [] := List.length_eq_zero_iff.1 (by omega)
    have h2 : bs = [] := List.length_eq_zero_iff.1 (by omega)
    subst h1 h2; simp [askOrder]
  | n + 1, [], [], _, _ => by simp [askOrder]
  | n + 1, a :: as, [], h, hd => by
    simp only [askOrder, List.map_cons, List.cons_append]
    exact (askOrder_perm n as [] (by simpa using h) (by simp)).cons _
  | n + 1, [], b :: bs, h, hd => by
    simp only [askOrder, List.map_cons, List.map_nil, List.nil_append]
    exact (by simpa using askOrder_perm n [] bs (by simpa using h) (by simp) : (askOrder n [] bs).Perm (bs.map (·, false))).cons _
  | n + 1, a :: as, b :: bs, h, hd => by
    simp only [askOrder, List.length_cons] at h ⊢
    split
    · exact (askOrder_perm n as (b :: bs) (by simp only [List.length_cons]; omega) (fun x hx => hd x (by simp [hx]))).cons _
    · split
      · refine ((askOrder_perm n (a :: as) bs (by simp only [List.length_cons]; omega) fun x hx hx' => hd x hx (by simp [hx'])).cons _).trans ?_
        rw [List.map_cons (l := bs)]
        exact List.perm_middle.symm
      · exact absurd (show a ∈ b :: bs from by simp only [List.mem_cons]; left; omega) (hd a (by simp))

/-! ### The stem -/

theorem matchLen_le (a b : List Byte) : matchLen a b ≤ a.length ∧ matchLen a b ≤ b.length := by
  induction a generalizing b with
  | nil => simp [matchLen]
  | cons x a ih =>
    cases b with
    | nil => simp [matchLen]
    | cons y b =>
      simp only [matchLen]
      split
      · have := ih b; simp only [List.length_cons]; omega
      · simp

theorem matchLen_take (a b : List Byte) : a.take (matchLen a b) = b.take (matchLen a b) := by
  induction a generalizing b with
  | nil => cases b <;> simp [matchLen]
  | cons x a ih =>
    cases b with
    | nil => simp [matchLen]
    | cons y b =>
      simp only [matchLen]
      split
      · rename_i h; subst h; simp [ih b]
      · simp

theorem matchLen_max {a b s : List Byte} (h1 : s <+: a) (h2 : s <+: b) : s.length ≤ matchLen a b := by
  induction s generalizing a b with
  | nil => simp
  | cons c s ih =>
    obtain ⟨t, rfl⟩ := h1
    obtain ⟨u, rfl⟩ := h2
    simp only [List.cons_append, matchLen, if_true, List.length_cons]
    have := ih (List.prefix_append s t) (List.prefix_append s u)
    omega

theorem stemLoop_spec : ∀ (cc : Nat) (prev : List Byte) (ws : List (List Byte)),
    stemLoop cc prev ws ≤ cc ∧
    (2 ≤ stemLoop cc prev ws → ∀ w ∈ ws, w.take (stemLoop cc prev ws) = prev.take (stemLoop cc prev ws) ∧ stemLoop cc prev ws ≤ w.length) ∧
    (2 ≤ stemLoop cc prev ws → ws ≠ [] → stemLoop cc prev ws ≤ prev.length) ∧
    (∀ s, s.length ≤ cc → s <+: prev → (∀ w ∈ ws, s <+: w) → s.length ≤ stemLoop cc prev ws)
  | cc, prev, [] => by simp [stemLoop]; intro s h _; exact h
  | cc, prev, w :: ws => by
    simp only [stemLoop]
    split
    · obtain ⟨h1, h2, h3, h4⟩ := stemLoop_spec (min cc (matchLen prev w)) w ws
      have hm := matchLen_le prev w
      have ht := matchLen_take prev w
      generalize stemLoop (min cc (matchLen prev w)) w ws = r at *
      have heq : w.take r = prev.take r := by
        have := congrArg (List.take r) ht
        rw [List.take_take, List.take_take, Nat.min_eq_left (by omega)] at this
        exact this.symm
      refine ⟨by omega, fun h => ?_, fun _ _ => by omega, fun s hs hp hw => ?_⟩
      · intro v hv
        simp only [List.mem_cons] at hv
        rcases hv with rfl | hv
        · exact ⟨heq, by omega⟩
        · exact ⟨by rw [(h2 h v hv).1, heq], (h2 h v hv).2⟩
      · have := matchLen_max hp (hw w (by simp))
        exact h4 s (by omega) (hw w (by simp)) fun v hv => hw v (by simp [hv])
    · rename_i h
      exact ⟨Nat.le_refl _, fun h' => absurd h' h, fun h' => absurd h' h, fun s hs _ _ => hs⟩

/-- **The class of a list of forms**: with at least two forms either they have two letters in common, then stem and endings
come out; or they do not, then nothing. -/
theorem classForms_spec (T : ClassTool) (p : Byte) (fs : List MForm) (h2 : 2 ≤ fs.length) (hlen : ∀ f ∈ fs, f.2.length < 2 ^ 32) :
    (∃ stem es s0 s1, ClassIs fs stem es ∧ (∃ q, stem = q ++ [s0, s1]) ∧
      classForms T p fs = .done (some (es, ⟨s0, s1, T.accent p (sortForms fs)⟩))) ∨
    ((∀ s, (∀ f ∈ fs, s <+: f.2) → s.length < 2) ∧ classForms T p fs = .done none) := by
  have hperm := sortForms_perm fs
  have hsort := sortForms_sorted fs
  have hll : (sortForms fs).length = fs.length := hperm.length_eq
  simp only [classForms]
  rw [if_neg (by omega)]
  generalize hss : sortForms fs = ss at *
  match ss, hll with
  | [], h => simp at h; omega
  | [_], h => simp at h; omega
  | f :: g :: ss, _ =>
    have hspec := stemLoop_spec (2 ^ 32 - 1) f.2 ((g :: ss).map (·.2))
    have hmem : ∀ e, e ∈ fs ↔ e ∈ f :: g :: ss := fun e => hperm.mem_iff.symm
    have hmax : ∀ s, (∀ e ∈ fs, s <+: e.2) → s.length ≤ stemLen (f :: g :: ss) := by
      intro s hs
      have hf := hs f ((hmem f).2 (by simp))
      refine hspec.2.2.2 s ?_ hf ?_
      · have h3 := hlen f ((hmem f).2 (by simp))
        have h4 := hf.length_le
        omega
      · intro w hw
        obtain ⟨e, he, rfl⟩ := List.mem_map.1 hw
        exact hs e ((hmem e).2 (List.mem_cons_of_mem _ he))
    by_cases hcc : 2 ≤ stemLen (f :: g :: ss)
    · left
      have hcc' : 2 ≤ stemLoop (2 ^ 32 - 1) f.2 ((g :: ss).map (·.2)) := hcc
      have hcl : stemLen (f :: g :: ss) ≤ f.2.length := hspec.2.2.1 hcc' (by simp)
      have hall : ∀ e ∈ f :: g :: ss, f.2.take (stemLen (f :: g :: ss)) ++ e.2.drop (stemLen (f :: g :: ss)) = e.2 := by
        intro e he
        rcases List.mem_cons.1 he with rfl | he
        · exact List.take_append_drop _ _
        · have h5 := (hspec.2.1 hcc' e.2 (List.mem_map.2 ⟨e, he, rfl⟩)).1
          change e.2.take (stemLen (f :: g :: ss)) = f.2.take (stemLen (f :: g :: ss)) at h5
          rw [← h5]
          exact List.take_append_drop _ _
      generalize stemLen (f :: g :: ss) = cc at *
      refine ⟨f.2.take cc, (f :: g :: ss).map fun e => (e.1, e.2.drop cc), f.2.getD (cc - 2) 0, f.2.getD (cc - 1) 0, ⟨?_, ?_, ?_⟩, ⟨f.2.take (cc - 2), ?_⟩, ?_⟩
      · rw [List.map_map]
        refine List.Perm.trans (List.Perm.of_eq ?_) hperm
        conv_rhs => rw [← List.map_id (f :: g :: ss)]
        apply List.map_congr_left
        intro e he
        exact Prod.ext rfl (hall e he)
      · rw [List.pairwise_map]
        refine hsort.imp_of_mem ?_
        intro a b ha hb hab
        rw [MForm.le_iff] at hab
        refine hab.imp_right fun h => ⟨h.1, ?_⟩
        have h6 := h.2
        rw [← hall a ha, ← hall b hb] at h6
        have hcan : ∀ (s u v : List Byte), bytesLt (s ++ u) (s ++ v) = bytesLt u v := by
          intro s u v
          induction s with
          | nil => rfl
          | cons c s ih => simp [bytesLt, ih]
        rwa [hcan] at h6
      · intro s hs
        have h7 := hmax s hs
        exact List.prefix_take_iff.2 ⟨hs f ((hmem f).2 (by simp)), h7⟩
      · have e1 : f.2.getD (cc - 2) 0 = f.2[cc - 2]'(by omega) := by rw [List.getD_eq_getElem?_getD, List.getElem?_eq_getElem (by omega)]; rfl
        have e2 : f.2.getD (cc - 1) 0 = f.2[cc - 1]'(by omega) := by rw [List.getD_eq_getElem?_getD, List.getElem?_eq_getElem (by omega)]; rfl
        rw [e1, e2]
        have h8 : f.2.take (cc - 2) ++ [f.2[cc - 2]'(by omega)] = f.2.take (cc - 1) := by
          have := List.take_append_getElem (l := f.2) (i := cc - 2) (by omega)
          rw [this]; congr 1; omega
        have h9 : f.2.take (cc - 1) ++ [f.2[cc - 1]'(by omega)] = f.2.take cc := by
          have := List.take_append_getElem (l := f.2) (i := cc - 1) (by omega)
          rw [this]; congr 1; omega
        rw [← h9, ← h8, List.append_assoc]; rfl
      · rw [if_pos hcc]
    · right
      refine ⟨fun s hs => ?_, by rw [if_neg hcc]⟩
      have := hmax s hs
      omega

/-- Without any condition on the forms: a class that comes out has the forms, in order, and two letters of the stem. -/
theorem classForms_some {T : ClassTool} {p : Byte} {fs es : List MForm} {sf : ClassSuffix} (h : classForms T p fs = .done (some (es, sf))) :
    ∃ stem, (es.map fun e => (e.1, stem ++ e.2)).Perm fs ∧ es.Pairwise MForm.Le ∧ 2 ≤ stem.length ∧ sf.accent = T.accent p (sortForms fs) := by
  have hperm := sortForms_perm fs
  have hsort := sortForms_sorted fs
  have hll : (sortForms fs).length = fs.length := hperm.length_eq
  simp only [classForms] at h
  split at h
  · split at h <;> cases h
  rename_i h2
  generalize hss : sortForms fs = ss at *
  match ss, hll with
  | [], hl => simp at hl; omega
  | [_], hl => simp at hl; omega
  | f :: g :: ss, _ =>
    have hspec := stemLoop_spec (2 ^ 32 - 1) f.2 ((g :: ss).map (·.2))
    split at h
    · rename_i hcc
      simp only [Ran.done.injEq, Option.some.injEq, Prod.mk.injEq] at h
      obtain ⟨rfl, rfl⟩ := h
      have hcc' : 2 ≤ stemLoop (2 ^ 32 - 1) f.2 ((g :: ss).map (·.2)) := hcc
      have hcl : stemLen (f :: g :: ss) ≤ f.2.length := hspec.2.2.1 hcc' (by simp)
      have hall : ∀ e ∈ f :: g :: ss, f.2.take (stemLen (f :: g :: ss)) ++ e.2.drop (stemLen (f :: g :: ss)) = e.2 := by
        intro e he
        rcases List.mem_cons.1 he with rfl | he
        · exact List.take_append_drop _ _
        · have h5 := (hspec.2.1 hcc' e.2 (List.mem_map.2 ⟨e, he, rfl⟩)).1
          change e.2.take (stemLen (f :: g :: ss)) = f.2.take (stemLen (f :: g :: ss)) at h5
          rw [← h5]
          exact List.take_append_drop _ _
      generalize stemLen (f :: g :: ss) = cc at *
      refine ⟨f.2.take cc, ?_, ?_, by rw [List.length_take]; omega, rfl⟩
      · rw [List.map_map]
        refine List.Perm.trans (List.Perm.of_eq ?_) hperm
        conv_rhs => rw [← List.map_id (f :: g :: ss)]
        apply List.map_congr_left
        intro e he
        exact Prod.ext rfl (hall e he)
      · rw [List.pairwise_map]
        refine hsort.imp_of_mem ?_
        intro a b ha hb hab
        rw [MForm.le_iff] at hab ⊢
        refine hab.imp_right fun h => ⟨h.1, ?_⟩
        have h6 := h.2
        rw [← hall a ha, ← hall b hb] at h6
        have hcan : ∀ (s u v : List Byte), bytesLt (s ++ u) (s ++ v) = bytesLt u v := by
          intro s u v
          induction s with
          | nil => rfl
          | cons c s ih => simp [bytesLt, ih]
        rwa [hcan] at h6
    · cases h

end Libmorph
