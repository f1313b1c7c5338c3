import Verif.Lemmas.CodePage
/-
The forms of a word as a list of texts, whatever buffer and code page they go to.
-/
namespace Libmorph

variable {P : Page} {enc : Byte → List Byte} {known : Byte → Prop} {σ : Type} {α β : Type}

/-- Run a collector over a list; behind it there is an end: no defined behaviour, or a result. -/
def runEnd (V : List α) (e : Option (Option Int)) (f : α → σ → Option (Option Int × σ)) (s : σ) : Option (Option Int × σ) :=
  match runList f V s with
  | some (none, s') => e.map fun r => (r, s')
  | x => x

/-- A traversal that is a sequence of calls, with an end that is not a positive number. -/
def Ended (scan : ∀ σ : Type, (α → σ → Option (Option Int × σ)) → σ → Option (Option Int × σ)) : Prop :=
  ∃ V e, (∀ r, e = some (some r) → r < 0) ∧ ∀ σ (f : α → σ → Option (Option Int × σ)) s, scan σ f s = runEnd V e f s

theorem Ended.undefined : Ended (α := α) (fun _ _ _ => none) := ⟨[], none, by simp, fun _ _ _ => rfl⟩

theorem Ended.ret (r : Option Int) (h : ∀ x, r = some x → x < 0) : Ended (α := α) (fun _ _ s => some (r, s)) :=
  ⟨[], some r, by simpa using h, fun _ _ _ => rfl⟩

theorem Ended.call (a : α) : Ended (fun _ f s => f a s) := by
  refine ⟨[a], some none, by simp, fun _ f s => ?_⟩
  simp only [runEnd, runList]
  rcases f a s with _ | ⟨_ | r, s'⟩ <;> rfl

theorem Ended.of_eq {p q : ∀ σ : Type, (α → σ → Option (Option Int × σ)) → σ → Option (Option Int × σ)}
    (h : ∀ σ f s, p σ f s = q σ f s) (hp : Ended p) : Ended q := by
  obtain ⟨V, e, h0, hp⟩ := hp
  exact ⟨V, e, h0, fun σ f s => by rw [← h, hp]⟩

theorem Ended.seq {p q : ∀ σ : Type, (α → σ → Option (Option Int × σ)) → σ → Option (Option Int × σ)} (hp : Ended p) (hq : Ended q) :
    Ended (fun σ f s => match p σ f s with
      | none => none
      | some (some r, s') => some (some r, s')
      | some (none, s') => q σ f s') := by
  obtain ⟨V, e, h0, hp⟩ := hp
  obtain ⟨W, e', h0', hq⟩ := hq
  rcases e with _ | _ | r
  · refine ⟨V, none, by simp, fun σ f s => ?_⟩
    simp only [hp, runEnd]
    rcases runList f V s with _ | ⟨_ | r, s'⟩ <;> rfl
  · refine ⟨V ++ W, e', h0', fun σ f s => ?_⟩
    simp only [hp, runEnd, runList_append]
    rcases runList f V s with _ | ⟨_ | r, s'⟩
    · rfl
    · simp only [Option.map_some, hq, runEnd]
    · rfl
  · refine ⟨V, some (some r), h0, fun σ f s => ?_⟩
    simp only [hp, runEnd]
    rcases runList f V s with _ | ⟨_ | r, s'⟩ <;> rfl

theorem Listed.bindEnded {p : Traversal β} {q : β → ∀ σ : Type, (α → σ → Option (Option Int × σ)) → σ → Option (Option Int × σ)}
    (hp : Listed p) (hq : ∀ b, Ended (q b)) : Ended (fun σ f s => p σ Int (fun b => q b σ f) s) := by
  obtain ⟨V, ok, hp⟩ := hp
  refine Ended.of_eq (fun σ f s => (hp σ Int _ s).symm) ?_
  clear hp
  induction V with
  | nil =>
    cases ok
    · exact Ended.undefined
    · exact Ended.ret none (by simp)
  | cons b V ih =>
    refine Ended.of_eq (fun σ f s => ?_) ((hq b).seq ih)
    simp only [runThen, runList]
    rcases q b σ f s with _ | ⟨_ | r, s'⟩ <;> rfl

/-! ### The loop that copies the forms -/

/-- A text to the buffer, in code page 1251. -/
def putText (t : List Byte) (s : FormState) : Option (Option Int × FormState) := do
  let (ok, c) ← s.pforms.appendz t
  if ok then return (none, ⟨c, s.nbuilt + 1⟩) else return (some LEMMBUFF_FAILED, ⟨c, s.nbuilt⟩)

/-- A text to the buffer, in another code page. -/
def putTextIn (P : Page) (t : List Byte) (s : FormState) : Option (Option Int × FormState) := do
  let (ok, c) ← s.pforms.appendzIn P t
  if ok then return (none, ⟨c, s.nbuilt + 1⟩) else return (some LEMMBUFF_FAILED, ⟨c, s.nbuilt⟩)

def textLoop (T : CharTab) (mincap : Nat) (put : List Byte → σ → Option (Option Int × σ)) : Nat → List Byte → σ → Option (Option Int × σ)
  | 0, _, s => some (none, s)
  | n + 1, mem, s =>
    match strLen mem with
    | none => none
    | some ccform =>
      match capSet T mem ccform mincap with
      | none => none
      | some mem =>
        match put (mem.take ccform) s with
        | none => none
        | some (some r, s') => some (some r, s')
        | some (none, s') => textLoop T mincap put n (mem.drop (ccform + 1)) s'

theorem formCopyLoop_texts (T : CharTab) (mincap n : Nat) (mem : List Byte) (s : FormState) :
    formCopyLoop T mincap n mem s = textLoop T mincap putText n mem s := by
  induction n generalizing mem s with
  | zero => rfl
  | succ n ih =>
    simp only [formCopyLoop, textLoop, putText]
    cases h1 : strLen mem with
    | none => rfl
    | some k =>
      simp only [bind, Option.bind_some]
      cases h2 : capSet T mem k mincap with
      | none => rfl
      | some mem =>
        simp only [Option.bind_some]
        rcases s.pforms.appendz (mem.take k) with _ | ⟨_ | _, c⟩
        · rfl
        · rfl
        · exact ih _ _

theorem formCopyLoopIn_texts (T : CharTab) (mincap n : Nat) (mem : List Byte) (s : FormState) :
    formCopyLoopIn P T mincap n mem s = textLoop T mincap (putTextIn P) n mem s := by
  induction n generalizing mem s with
  | zero => rfl
  | succ n ih =>
    simp only [formCopyLoopIn, textLoop, putTextIn]
    cases h1 : strLen mem with
    | none => rfl
    | some k =>
      simp only [bind, Option.bind_some]
      cases h2 : capSet T mem k mincap with
      | none => rfl
      | some mem =>
        simp only [Option.bind_some]
        rcases s.pforms.appendzIn P (mem.take k) with _ | ⟨_ | _, c⟩
        · rfl
        · rfl
        · exact ih _ _

theorem textLoop_ended (T : CharTab) (mincap n : Nat) (mem : List Byte) :
    Ended (fun _ f s => textLoop T mincap f n mem s) := by
  induction n generalizing mem with
  | zero => exact Ended.ret none (by simp)
  | succ n ih =>
    simp only [textLoop]
    cases h1 : strLen mem with
    | none => exact Ended.undefined
    | some k =>
      cases h2 : capSet T mem k mincap with
      | none => simpa [h2] using Ended.undefined
      | some mem =>
        simp only [h2]
        exact Ended.of_eq (fun _ f s => by rcases f (mem.take k) s with _ | ⟨_ | r, s'⟩ <;> rfl) ((Ended.call (mem.take k)).seq (ih (mem.drop (k + 1))))

/-- The forms of a lexeme, with any collector. -/
def formTexts (im : RusImages) (idform : Nat) (stem suffix : List Byte) (lextem : RusStem) (put : List Byte → σ → Option (Option Int × σ))
    (s : σ) : Option (Option Int × σ) :=
  if getGramInfo lextem.wdinfo idform = noInfo ∧ idform ≠ 0xff then some (none, s)
  else if (lextem.tfoffs ≠ 0) ≠ (idform ≠ 0xff) then some (none, s)
  else
    match rusWordForms im 256 stem suffix lextem (getGramInfo lextem.wdinfo idform) [] with
    | none => none
    | some (nforms, out) =>
      if nforms ≤ 0 then some (retInt nforms, s) else textLoop rusTab lextem.minCap put nforms.toNat out s

theorem rusFormBuild_texts (im : RusImages) (idform : Nat) (stem suffix : List Byte) (lextem : RusStem) (s : FormState) :
    rusFormBuild im idform stem suffix lextem s = formTexts im idform stem suffix lextem putText s := by
  simp only [rusFormBuild, formTexts]
  split
  · rfl
  · split
    · rfl
    · rcases rusWordForms im 256 stem suffix lextem (getGramInfo lextem.wdinfo idform) [] with _ | ⟨n, out⟩
      · rfl
      · simp only [bind, Option.bind_some, formCopyLoop_texts]; rfl

theorem rusFormBuildIn_texts (im : RusImages) (idform : Nat) (stem suffix : List Byte) (lextem : RusStem) (s : FormState) :
    rusFormBuildIn P im idform stem suffix lextem s = formTexts im idform stem suffix lextem (putTextIn P) s := by
  simp only [rusFormBuildIn, formTexts]
  split
  · rfl
  · split
    · rfl
    · rcases rusWordForms im 256 stem suffix lextem (getGramInfo lextem.wdinfo idform) [] with _ | ⟨n, out⟩
      · rfl
      · simp only [bind, Option.bind_some, formCopyLoopIn_texts]; rfl

theorem formTexts_ended (im : RusImages) (idform : Nat) (stem suffix : List Byte) (lextem : RusStem) :
    Ended (fun _ f s => formTexts im idform stem suffix lextem f s) := by
  simp only [formTexts]
  split
  · exact Ended.ret none (by simp)
  · split
    · exact Ended.ret none (by simp)
    · rcases rusWordForms im 256 stem suffix lextem (getGramInfo lextem.wdinfo idform) [] with _ | ⟨n, out⟩
      · exact Ended.undefined
      · simp only
        split
        · rename_i h
          refine Ended.ret _ ?_
          intro x hx
          simp only [retInt] at hx
          split at hx
          · cases hx
          · cases hx; omega
        · exact textLoop_ended _ _ _ _

/-! ### The buffer after all the texts -/

theorem putText_run (B : List Byte) (ts : List (List Byte)) (x : List Byte) (s : FormState) (h : s.pforms.Holds B x) :
    ((packed ts = [] ∨ (x ++ packed ts).length < B.length) → ∃ s', runList putText ts s = some (none, s') ∧ s'.pforms.Holds B (x ++ packed ts) ∧
      s'.nbuilt = s.nbuilt + ts.length) ∧
    (packed ts ≠ [] → B.length ≤ (x ++ packed ts).length → ∃ s', runList putText ts s = some (some LEMMBUFF_FAILED, s') ∧
      s'.pforms.buf.map List.length = some B.length) := by
  induction ts generalizing x s with
  | nil =>
    refine ⟨fun _ => ⟨s, rfl, by simpa [packed] using h, by simp⟩, fun hne => absurd rfl hne⟩
  | cons t ts ih =>
    obtain ⟨h1, h2⟩ := Coder.appendz_eq h t
    have hlen : (x ++ packed (t :: ts)).length = x.length + t.length + 1 + (packed ts).length := by
      simp only [packed_cons, List.length_append, List.length_cons]; omega
    have hne : packed (t :: ts) ≠ [] := by rw [packed_cons]; simp
    simp only [runList]
    by_cases hr : x.length + t.length + 2 ≤ B.length
    · obtain ⟨c', k1, k2⟩ := h1 hr
      have hstep : putText t s = some (none, ⟨c', s.nbuilt + 1⟩) := by simp [putText, k1]
      simp only [hstep]
      obtain ⟨i1, i2⟩ := ih (x ++ (t ++ [0])) ⟨c', s.nbuilt + 1⟩ k2
      have e : x ++ packed (t :: ts) = x ++ (t ++ [0]) ++ packed ts := by simp [packed_cons]
      rw [e]
      refine ⟨fun hh => ?_, fun _ hh => ?_⟩
      · have hh := hh.resolve_left hne
        obtain ⟨s', j1, j2, j3⟩ := i1 (Or.inr hh)
        exact ⟨s', j1, j2, by rw [j3, List.length_cons]; simp only; omega⟩
      · by_cases hp : packed ts = []
        · rw [hp] at hh
          simp only [List.length_append, List.length_singleton, List.length_nil] at hh
          omega
        · exact i2 hp hh
    · obtain ⟨c', k1, b, k2, k3⟩ := h2 (by omega)
      have hstep : putText t s = some (some LEMMBUFF_FAILED, ⟨c', s.nbuilt⟩) := by simp [putText, k1]
      simp only [hstep]
      refine ⟨fun hh => ?_, fun _ _ => ⟨_, rfl, by simp [k2, k3]⟩⟩
      have hh := hh.resolve_left hne
      omega

theorem putTextIn_run (hP : P.Ok enc known) (B : List Byte) (ts : List (List Byte)) (x : List Byte) (s : FormState) (h : s.pforms.HoldsIn B x) :
    (∃ s', runList (putTextIn P) ts s = some (none, s') ∧ s'.pforms.HoldsIn B (x ++ packed (ts.map (inPage enc))) ∧
      s'.nbuilt = s.nbuilt + ts.length) ∨
    (∃ s', runList (putTextIn P) ts s = some (some LEMMBUFF_FAILED, s') ∧ s'.pforms.buf.map List.length = some B.length ∧
      ts ≠ [] ∧ B.length ≤ (x ++ packed (ts.map (inPage enc))).length) := by
  induction ts generalizing x s with
  | nil => exact .inl ⟨s, rfl, by simpa [packed] using h, by simp⟩
  | cons t ts ih =>
    simp only [runList]
    have e : x ++ packed ((t :: ts).map (inPage enc)) = x ++ (inPage enc t ++ [0]) ++ packed (ts.map (inPage enc)) := by simp [packed_cons]
    rw [e]
    rcases Coder.appendzIn_eq hP h t with ⟨c', k1, k2⟩ | ⟨c', k1, k2, k3⟩
    · have hstep : putTextIn P t s = some (none, ⟨c', s.nbuilt + 1⟩) := by simp [putTextIn, k1]
      simp only [hstep]
      rcases ih _ ⟨c', s.nbuilt + 1⟩ k2 with ⟨s', j1, j2, j3⟩ | ⟨s', j1, j2, j3, j4⟩
      · exact .inl ⟨s', j1, j2, by rw [j3, List.length_cons]; simp only; omega⟩
      · exact .inr ⟨s', j1, j2, by simp, j4⟩
    · have hstep : putTextIn P t s = some (some LEMMBUFF_FAILED, ⟨c', s.nbuilt⟩) := by simp [putTextIn, k1]
      simp only [hstep]
      refine .inr ⟨_, rfl, k2, by simp, ?_⟩
      rw [List.length_append]; omega

/-- The answer of a function that delivers forms. -/
def formAnswer (r : Option (Option Int × FormState)) : Option (Int × Option (List Byte)) := r.map fun r => ((formResult r).1, (formResult r).2.buf)

theorem Coder.Holds.filled {c : Coder} {B : List Byte} {ts : List (List Byte)} (h : c.Holds B (packed ts)) :
    c.buf = some (filled B ts) := by
  rcases h.buf with ⟨h1, h2⟩ | ⟨h1, h2, h3⟩
  · have : ts = [] := by
      cases ts with
      | nil => rfl
      | cons t ts => simp [packed_cons] at h1
    simp [Libmorph.filled, this, h2]
  · have : ts ≠ [] := by rintro rfl; exact h1 rfl
    rw [Libmorph.filled, if_neg this, h3, List.take_of_length_le]
    simp only [List.length_append, List.length_cons, List.length_drop]; omega

theorem Coder.HoldsIn.filled {c : Coder} {B : List Byte} {ts : List (List Byte)} (h : c.HoldsIn B (packed ts)) :
    c.buf = some (filled B ts) := by
  rw [h.buf, Libmorph.filled]
  cases ts with
  | nil => simp [packed]
  | cons t ts => rw [if_neg (by simp [packed_cons]), if_neg (by simp)]

theorem filled_room {B : List Byte} {ts : List (List Byte)} (h : (packed ts).length < B.length) (hne : ts ≠ []) :
    filled B ts = packed ts ++ 0 :: B.drop ((packed ts).length + 1) := by
  rw [filled, if_neg hne, List.take_of_length_le]
  simp; omega

theorem filled_drop {B : List Byte} {ts : List (List Byte)} (h : (packed ts).length < B.length) {i : Nat} (hi : i < ts.length) :
    ∃ r, (filled B ts).drop (packed (ts.take i)).length = ts[i] ++ 0 :: r := by
  rw [filled_room h (by rintro rfl; simp at hi)]
  have e : ts = ts.take i ++ ts[i] :: ts.drop (i + 1) := by simp
  have e2 : packed ts = packed (ts.take i) ++ (ts[i] ++ 0 :: packed (ts.drop (i + 1))) := by
    conv => lhs; rw [e]
    rw [packed_append, packed_cons]
  refine ⟨packed (ts.drop (i + 1)) ++ 0 :: B.drop ((packed ts).length + 1), ?_⟩
  generalize B.drop ((packed ts).length + 1) = z
  rw [e2, List.append_assoc, List.drop_left' rfl]
  simp

theorem filled_length (B : List Byte) (ts : List (List Byte)) (h : (packed ts).length ≤ B.length) : (filled B ts).length = B.length := by
  rw [filled]
  split
  · rfl
  · simp only [List.length_take, List.length_append, List.length_cons, List.length_drop]; omega

theorem native_answer {V : List (List Byte)} {e : Option (Option Int)} (he : ∀ r, e = some (some r) → r < 0) (B : List Byte) (hB : B ≠ []) :
    ((packed V).length < B.length → formAnswer (runEnd V e putText ⟨⟨some B, 0⟩, 0⟩) = e.map fun r => (r.getD V.length, some (filled B V))) ∧
    (B.length ≤ (packed V).length → ∃ B', formAnswer (runEnd V e putText ⟨⟨some B, 0⟩, 0⟩) = some (LEMMBUFF_FAILED, some B') ∧ B'.length = B.length) := by
  have hB1 : 0 < B.length := List.length_pos_iff.2 hB
  obtain ⟨h1, h2⟩ := putText_run B V [] ⟨⟨some B, 0⟩, 0⟩ ⟨rfl, by simp, .inl ⟨rfl, rfl⟩⟩
  simp only [List.nil_append] at h1 h2
  refine ⟨fun hr => ?_, fun hr => ?_⟩
  · obtain ⟨s', k1, k2, k3⟩ := h1 (.inr hr)
    simp only [runEnd, k1]
    have hb := k2.filled
    rcases e with _ | _ | r
    · rfl
    · simp only [formAnswer, Option.map_some, formResult, hb, k3, Option.getD_none]; simp
    · have := he r rfl
      simp only [formAnswer, Option.map_some, formResult, if_pos this, hb, Option.getD_some]
  · obtain ⟨s', k1, k2⟩ := h2 (by intro h0; rw [h0, List.length_nil] at hr; omega) hr
    simp only [runEnd, k1]
    cases hb : s'.pforms.buf with
    | none => rw [hb] at k2; cases k2
    | some b =>
      rw [hb] at k2
      refine ⟨b, ?_, by simpa using k2⟩
      simp only [formAnswer, Option.map_some, formResult, hb]
      rw [if_pos (by decide)]
      simp only [hb]

theorem page_answer (hP : P.Ok enc known) {V : List (List Byte)} {e : Option (Option Int)} (he : ∀ r, e = some (some r) → r < 0) (B : List Byte) :
    (formAnswer (runEnd V e (putTextIn P) ⟨⟨some B, 0⟩, 0⟩) = (e.map fun r => (r.getD V.length, some (filled B (V.map (inPage enc))))) ∧
      (packed (V.map (inPage enc))).length ≤ B.length) ∨
    ((∃ B', formAnswer (runEnd V e (putTextIn P) ⟨⟨some B, 0⟩, 0⟩) = some (LEMMBUFF_FAILED, some B') ∧ B'.length = B.length) ∧
      B.length ≤ (packed (V.map (inPage enc))).length) := by
  rcases putTextIn_run hP B V [] ⟨⟨some B, 0⟩, 0⟩ ⟨rfl, by simp, rfl⟩ with ⟨s', k1, k2, k3⟩ | ⟨s', k1, k2, k3, k4⟩
  · left
    simp only [List.nil_append] at k2
    refine ⟨?_, k2.room⟩
    simp only [runEnd, k1]
    have hb := k2.filled
    rcases e with _ | _ | r
    · rfl
    · simp only [formAnswer, Option.map_some, formResult, hb, k3, Option.getD_none]; simp
    · have := he r rfl
      simp only [formAnswer, Option.map_some, formResult, if_pos this, hb, Option.getD_some]
  · right
    refine ⟨?_, by simpa using k4⟩
    simp only [runEnd, k1]
    cases hb : s'.pforms.buf with
    | none => rw [hb] at k2; cases k2
    | some b =>
      rw [hb] at k2
      refine ⟨b, ?_, by simpa using k2⟩
      simp only [formAnswer, Option.map_some, formResult, hb]
      rw [if_pos (by decide)]
      simp only [hb]

theorem sameTexts_of (hP : P.Ok enc known)
    {scan : ∀ σ : Type, (List Byte → σ → Option (Option Int × σ)) → σ → Option (Option Int × σ)} (hs : Ended scan)
    {native page : List Byte → Option (Int × Option (List Byte))}
    (hn : ∀ B, B ≠ [] → native B = formAnswer (scan FormState putText ⟨⟨some B, 0⟩, 0⟩))
    (hp : ∀ B, B ≠ [] → page B = formAnswer (scan FormState (putTextIn P) ⟨⟨some B, 0⟩, 0⟩)) : SameTexts enc native page := by
  obtain ⟨V, e, he, hs⟩ := hs
  have hlen : ∀ B : List Byte, (packed (V.map (inPage enc))).length ≤ B.length → (packed V).length ≤ B.length := fun B h =>
    le_trans (hP.packed_le V) h
  have hneg : ¬ (0 : Int) ≤ LEMMBUFF_FAILED := by decide
  have hget : ∀ r : Option Int, e = some r → 0 ≤ r.getD V.length → r = none := by
    intro r hr h0
    cases r with
    | none => rfl
    | some r => have := he r hr; simp at h0; omega
  constructor
  · intro B n B' hB h0 h1
    rw [hn B hB, hs] at h0
    obtain ⟨n1, n2⟩ := native_answer he B hB
    by_cases hr : (packed V).length < B.length
    · rw [n1 hr] at h0
      cases e with
      | none => cases h0
      | some r =>
        simp only [Option.map_some, Option.some.injEq, Prod.mk.injEq] at h0
        obtain ⟨rfl, rfl⟩ := h0
        have := hget r rfl h1
        subst this
        refine ⟨V, rfl, rfl, fun C hC => ?_⟩
        rw [hp C hC, hs]
        rcases page_answer hP he C with ⟨k1, k2⟩ | ⟨k1, k2⟩
        · refine ⟨fun _ => by rw [k1]; rfl, fun h => by omega⟩
        · exact ⟨fun h => by omega, fun _ => k1⟩
    · obtain ⟨b, k1, -⟩ := n2 (by omega)
      rw [k1] at h0
      simp only [Option.some.injEq, Prod.mk.injEq] at h0
      rw [← h0.1] at h1
      exact absurd h1 hneg
  · intro C n C' hC h0 h1
    rw [hp C hC, hs] at h0
    rcases page_answer hP he C with ⟨k1, k2⟩ | ⟨⟨b, k1, -⟩, k2⟩
    · rw [k1] at h0
      cases e with
      | none => cases h0
      | some r =>
        simp only [Option.map_some, Option.some.injEq, Prod.mk.injEq] at h0
        obtain ⟨rfl, rfl⟩ := h0
        have := hget r rfl h1
        subst this
        refine ⟨V, rfl, rfl, k2, fun B hB => ?_⟩
        rw [hn B hB, hs]
        obtain ⟨n1, n2⟩ := native_answer he B hB
        exact ⟨fun h => by rw [n1 h]; rfl, n2⟩
    · rw [k1] at h0
      simp only [Option.some.injEq, Prod.mk.injEq] at h0
      rw [← h0.1] at h1
      exact absurd h1 hneg
  · intro B r B' hB h0 h1 h2 C hC
    rw [hn B hB, hs] at h0
    obtain ⟨n1, n2⟩ := native_answer he B hB
    by_cases hr : (packed V).length < B.length
    · rw [n1 hr] at h0
      cases e with
      | none => cases h0
      | some r' =>
        simp only [Option.map_some, Option.some.injEq, Prod.mk.injEq] at h0
        obtain ⟨rfl, rfl⟩ := h0
        rw [hp C hC, hs]
        rcases page_answer hP he C with ⟨k1, k2⟩ | ⟨⟨b, k1, -⟩, k2⟩
        · exact ⟨_, .inl (by rw [k1]; rfl)⟩
        · exact ⟨_, .inr k1⟩
    · obtain ⟨b, k1, -⟩ := n2 (by omega)
      rw [k1] at h0
      simp only [Option.some.injEq, Prod.mk.injEq] at h0
      exact absurd h0.1.symm h2

/-! ### The two functions -/

theorem rusPrepareIn_eq (hP : P.Ok enc known) (w : List Byte) (hk : ∀ b ∈ w, known b) (hl : w.length < 48) (dwsets : Nat) :
    rusPrepareIn P (inPage enc w) dwsets = rusPrepare w dwsets := by
  have hc : rusCanonicIn P (inPage enc w) = rusCanonic w := by
    have := hP.length_le w
    simp only [rusCanonicIn, rusCanonic]
    by_cases h0 : w = []
    · subst h0; rfl
    · have : 0 < w.length := List.length_pos_iff.2 h0
      rw [if_neg (by omega), if_neg (by omega)]
      rw [hP.into_room _ w hk (by simpa [formLength] using hl)]
  simp only [rusPrepareIn, rusPrepare, hc]
  rcases rusCanonic w with _ | _ | ⟨a, b⟩ <;> rfl

theorem buildForm_ended (im : RusImages) (idform pos : Nat) :
    Ended (fun σ f s => getTrack (σ := σ) (ρ := Int) .u8 (selectView (fun _ oclass track suffix s =>
      match loadRus im.classmap oclass with
      | none => none
      | some lextem => formTexts im idform track suffix lextem f s) pos) (some pos) formLength im.stemtree [] s) := by
  have h := (track_listed pos im.stemtree formLength).bindEnded (q := fun b _ f s =>
      match loadRus im.classmap b.2.1 with
      | none => none
      | some lextem => formTexts im idform b.2.2.1 b.2.2.2 lextem f s) fun b => by
    cases loadRus im.classmap b.2.1 with
    | none => exact Ended.undefined
    | some l => exact formTexts_ended _ _ _ _ _
  generalize formLength = n at h ⊢
  exact h

theorem findForms_ended (im : RusImages) (idform : Nat) (locase junk : List Byte) (scheme dwsets : Nat) :
    Ended (fun σ f s => rusScan (σ := σ) (ρ := Int) im locase junk scheme dwsets
      (fun _ lextem inflex suffix _ s => formTexts im idform (stemOf locase junk inflex) suffix lextem f s) s) := by
  have h := (rusScan_listed im locase junk scheme dwsets).bindEnded (q := fun b _ f s =>
    formTexts im idform (stemOf locase junk b.2.2.1) b.2.2.2.1 b.2.1 f s) fun _ => formTexts_ended _ _ _ _ _
  exact h

end Libmorph
