import Verif.Spec.Wide
import Verif.Spec.English
/-
The loops of the wide interfaces.
-/
namespace Libmorph

theorem idCodec_ok : idCodec.Ok (fun c => c % 256) id := by
  refine ⟨?_, ?_, ?_⟩
  · intro n w s h
    simp only [idCodec] at h
    split at h
    · cases h; exact ⟨rfl, by simp; omega⟩
    · cases h
  · intro n w h; simp [idCodec, h]
  · intro n s h _; simp [idCodec, h]

variable {C : Codec} {byte : Nat → Byte} {wide : Byte → Nat}

theorem takeWhile_zero (t rest : List Byte) (h : 0 ∉ t) : (t ++ 0 :: rest).takeWhile (· ≠ 0) = t := by
  induction t with
  | nil => simp
  | cons a t ih =>
    have ha : a ≠ 0 := fun e => h (by simp [e])
    rw [List.cons_append, List.takeWhile_cons, if_pos (by simpa using ha), ih (fun e => h (by simp [e]))]

theorem widePacked_length (ts : List (List Byte)) : (widePacked wide ts).length = (packed ts).length := by
  induction ts with
  | nil => rfl
  | cons t ts ih => simpa [widePacked, packed] using ih

theorem wideLoop_eq (hC : C.Ok byte wide) (ts : List (List Byte)) (hz : ∀ t ∈ ts, 0 ∉ t) (rest : List Byte) :
    ∀ (x y : List Nat), (packed ts).length ≤ y.length →
      wideLoop C ts.length (packed ts ++ rest) (x ++ y) x.length =
        some (x ++ widePacked wide ts ++ y.drop (packed ts).length) := by
  induction ts with
  | nil => intro x y _; simp [wideLoop, widePacked, packed]
  | cons t ts ih =>
    intro x y hy
    have e1 : packed (t :: ts) = t ++ 0 :: packed ts := by simp [packed]
    have e2 : widePacked wide (t :: ts) = t.map wide ++ 0 :: widePacked wide ts := by simp [widePacked]
    have ht := hz t (by simp)
    rw [e1] at hy
    simp only [List.length_append, List.length_cons] at hy
    rw [e1, e2, List.length_cons, wideLoop, if_pos (by simp)]
    rw [List.append_assoc, List.cons_append, takeWhile_zero t _ ht,
      hC.widen _ t (by rw [List.length_append]; omega) ht]
    simp only [Option.bind_eq_bind]
    rw [pokes, if_pos (by simp; omega)]
    simp only [Option.bind_some]
    have e3 : (t ++ 0 :: (packed ts ++ rest)).drop (t.length + 1) = packed ts ++ rest := by
      rw [show t.length + 1 = (t ++ [0]).length by simp, show t ++ 0 :: (packed ts ++ rest) = (t ++ [0]) ++ (packed ts ++ rest) by simp,
        List.drop_left]
    rw [e3, List.take_left]
    have e4 : x.length + (t.length + 1) = (x ++ (t.map wide ++ [0])).length := by simp
    have e5 : (x ++ y).drop (x.length + (t.map wide ++ [0]).length) = y.drop (t.length + 1) := by
      rw [List.drop_append]; simp
    rw [e4, e5, ih (fun u hu => hz u (by simp [hu])) _ _ (by rw [List.length_drop]; omega)]
    simp [List.drop_drop, Nat.add_comm, Nat.add_left_comm]

theorem wideRecords_eq (nul : Bool) (tl : List Lemm) : ∀ (rs done : List Lemm) (x y : List LemmW), x.length = done.length → rs.length ≤ y.length →
    wideRecords nul (done ++ rs ++ tl) rs.length x.length (x ++ y) =
      some (x ++ (rs.map fun r => ⟨r.nlexid, if nul then none else some r.plemma, r.pgrams, r.ngrams⟩) ++ y.drop rs.length) := by
  intro rs
  induction rs with
  | nil => intro done x y _ _; simp [wideRecords]
  | cons r rs ih =>
    intro done x y h1 h2
    cases y with
    | nil => simp at h2
    | cons a y =>
      rw [List.length_cons, wideRecords, h1, List.append_assoc, List.getElem?_append_right (by omega)]
      simp only [Nat.sub_self, List.cons_append, List.getElem?_cons_zero, Option.bind_eq_bind, Option.bind_some]
      rw [if_pos (by simp; omega)]
      have e : (x ++ a :: y).set done.length ⟨r.nlexid, if nul then none else some r.plemma, r.pgrams, r.ngrams⟩ =
          (x ++ [⟨r.nlexid, if nul then none else some r.plemma, r.pgrams, r.ngrams⟩]) ++ y := by
        rw [← h1]; simp
      have := ih (done ++ [r]) (x ++ [⟨r.nlexid, if nul then none else some r.plemma, r.pgrams, r.ngrams⟩]) y (by simp [h1]) (by simpa using h2)
      rw [e]
      simp only [List.length_append, List.length_cons, List.length_nil, h1, List.append_assoc, List.cons_append, List.nil_append] at this ⊢
      rw [this]
      simp


/-- The buffers of the byte interface for the buffers of a client of the wide one. -/
def narrowL (lmbuff : List Lemm) (out : Option (List LemmW)) : Option (List Lemm) := out.map fun o => lmbuff.take (min o.length 0x20)
def narrowB (szlemm : List Byte) (W : Option (List Nat)) : Option (List Byte) := W.map fun p => szlemm.take (min p.length 0xf0)

theorem groupRecords_len (f g : Bool) (gs : List LemmGroup) : ∀ a b, (groupRecords f g a b gs).length = gs.length := by
  induction gs with
  | nil => intro a b; rfl
  | cons x gs ih => intro a b; rw [groupRecords, List.length_cons, ih, List.length_cons]

theorem mem_joinStep {r : Bool} {gs : List LemmGroup} {p : LemmStep} {g : LemmGroup} (h : g ∈ joinStep r gs p) :
    (∃ g' ∈ gs, g'.1 = g.1) ∨ g.1 = p := by
  unfold joinStep at h
  split at h
  · rename_i g0 hg0
    have hg0' := List.mem_of_getLast? hg0
    split at h
    · rcases List.mem_append.1 h with h | h
      · exact Or.inl ⟨g, (List.dropLast_sublist gs).subset h, rfl⟩
      · simp only [List.mem_singleton] at h
        exact Or.inl ⟨g0, hg0', by rw [h]⟩
    · rcases List.mem_append.1 h with h | h
      · exact Or.inl ⟨g, h, rfl⟩
      · simp only [List.mem_singleton] at h
        exact Or.inr (by rw [h])
  · simp only [List.mem_singleton] at h
    exact Or.inr (by rw [h])

theorem mem_lemmGroups {r : Bool} {H : List LemmStep} {g : LemmGroup} (h : g ∈ lemmGroups r H) : g.1 ∈ H := by
  have key : ∀ (H : List LemmStep) (gs : List LemmGroup), (g ∈ H.foldl (joinStep r) gs) → (∃ g' ∈ gs, g'.1 = g.1) ∨ g.1 ∈ H := by
    intro H
    induction H with
    | nil => intro gs h; exact Or.inl ⟨g, h, rfl⟩
    | cons p H ih =>
      intro gs h
      rcases ih _ h with ⟨g', h1, h2⟩ | h1
      · rcases mem_joinStep h1 with ⟨g'', h3, h4⟩ | h3
        · exact Or.inl ⟨g'', h3, by rw [h4, h2]⟩
        · exact Or.inr (by rw [← h2, h3]; simp)
      · exact Or.inr (List.mem_cons_of_mem _ h1)
  rcases key H [] h with ⟨g', h1, -⟩ | h1
  · simp at h1
  · exact h1

/-- The wide lemmatizer over a byte lemmatizer. -/
theorem wideLemmatize_eq (hC : C.Ok byte wide) {lem : List Byte → Option (List Lemm) → Option (List Byte) → Option (List Gram) → Option (Int × LemmState)}
    {H : List LemmStep} (w : List Nat) (hlen : w.length < 240) (hspec : LemmSpec (lem (w.map byte)) H) (hz : ∀ p ∈ H, 0 ∉ p.text)
    (lmbuff : List Lemm) (szlemm : List Byte) (hl : lmbuff.length = 32) (hs : szlemm.length = 240)
    (out : Option (List LemmW)) (W : Option (List Nat)) (G : Option (List Gram)) (gs : List LemmGroup) (hgs : gs = lemmGroups out.isSome H) :
    (GroupRoomy (narrowL lmbuff out) (narrowB szlemm W) G gs →
      ∃ s, lem (w.map byte) (narrowL lmbuff out) (narrowB szlemm W) G = some ((gs.length : Int), s) ∧
        wideLemmatize C lem lmbuff szlemm w out W G = some ((gs.length : Int),
          out.map (fun o => ((groupRecords W.isSome G.isSome 0 0 gs).map fun r =>
            ⟨r.nlexid, if W.isNone then none else some r.plemma, r.pgrams, r.ngrams⟩) ++ o.drop gs.length),
          W.map (fun v => if gs = [] then v else widePacked wide (gs.map fun g => g.1.text) ++ v.drop (groupTexts gs).length),
          s.grams) ∧ GroupReported (narrowL lmbuff out) (narrowB szlemm W) G gs s) ∧
    (JoinSafe (narrowL lmbuff out) G H → ¬ GroupFits (narrowL lmbuff out) (narrowB szlemm W) G gs →
      ∃ r G', wideLemmatize C lem lmbuff szlemm w out W G = some (r, out, W, G') ∧ r < 0) := by
  obtain ⟨s0, hn⟩ := Option.isSome_iff_exists.1 (hC.narrow_room 0xf0 w hlen)
  obtain ⟨hn1, -⟩ := hC.narrow_some _ _ _ hn
  subst hn1
  have hLs : (narrowL lmbuff out).isSome = out.isSome := by cases out <;> rfl
  have hsp := hspec (narrowL lmbuff out) (narrowB szlemm W) G
  rw [hLs, ← hgs] at hsp
  constructor
  · intro hroom
    obtain ⟨s, h1, h2⟩ := hsp.1 hroom
    refine ⟨s, h1, ?_, h2⟩
    rw [wideLemmatize, hn]
    simp only [Option.bind_eq_bind]
    change (lem (w.map byte) (narrowL lmbuff out) (narrowB szlemm W) G).bind _ = _
    rw [h1]
    simp only [Option.bind_some]
    by_cases hg : gs = []
    · subst hg
      rw [if_pos (by simp)]
      cases out <;> cases W <;> simp [groupRecords]
    · have hpos : 0 < gs.length := List.length_pos_iff.2 hg
      rw [if_neg (by omega)]
      have hrec : (whenPtr out fun o => wideRecords W.isNone (s.lemms.getD []) ((gs.length : Int)).toNat 0 o) =
          some (out.map fun o => ((groupRecords W.isSome G.isSome 0 0 gs).map fun r =>
            ⟨r.nlexid, if W.isNone then none else some r.plemma, r.pgrams, r.ngrams⟩) ++ o.drop gs.length) := by
        cases out with
        | none => rfl
        | some o =>
          have h3 := h2.lemms
          rw [narrowL] at h3
          simp only [Option.map_some, HoldRecords] at h3
          obtain ⟨tl, h4, -, -, -⟩ := h3
          have hB : (narrowB szlemm W).isSome = W.isSome := by cases W <;> rfl
          rw [hB] at h4
          have hle : gs.length ≤ o.length := by
            have := hroom.lemms _ (by rw [narrowL]; simp; rfl)
            rw [List.length_take] at this; omega
          have h5 := wideRecords_eq W.isNone tl (groupRecords W.isSome G.isSome 0 0 gs) [] [] o rfl (by rw [groupRecords_len]; exact hle)
          rw [groupRecords_len] at h5
          simp only [List.nil_append, List.length_nil] at h5
          simp only [whenPtr, h4, Option.getD_some, Int.toNat_natCast, Option.map_some]
          rw [h5]; rfl
      have htx : (whenPtr W fun p => wideLoop C ((gs.length : Int)).toNat (s.forms.buf.getD []) p 0) =
          some (W.map fun v => if gs = [] then v else widePacked wide (gs.map fun g => g.1.text) ++ v.drop (groupTexts gs).length) := by
        cases W with
        | none => rfl
        | some v =>
          have h3 := h2.texts
          rw [narrowB] at h3
          simp only [Option.map_some, if_neg hg] at h3
          have hle : (groupTexts gs).length ≤ v.length := by
            have := hroom.texts _ (by rw [narrowB]; simp; rfl) hg
            rw [List.length_take] at this; omega
          have h5 := wideLoop_eq hC (gs.map fun g => g.1.text) (by
            intro t ht
            obtain ⟨g, hg1, rfl⟩ := List.mem_map.1 ht
            exact hz _ (mem_lemmGroups (hgs ▸ hg1)))
            (0 :: (szlemm.take (min v.length 0xf0)).drop ((groupTexts gs).length + 1)) [] v hle
          simp only [List.nil_append, List.length_nil, List.length_map] at h5
          simp only [whenPtr, h3, Option.getD_some, Int.toNat_natCast, Option.map_some, if_neg hg]
          rw [show groupTexts gs = packed (gs.map fun g => g.1.text) from rfl] at h5 ⊢
          rw [h5]; rfl
      rw [hrec]
      simp only [Option.bind_some]
      rw [htx]
      rfl
  · intro hsafe hno
    obtain ⟨r, s, h1, h2⟩ := hsp.2 hsafe hno
    refine ⟨r, s.grams, ?_, h2⟩
    rw [wideLemmatize, hn]
    simp only [Option.bind_eq_bind]
    change (lem (w.map byte) (narrowL lmbuff out) (narrowB szlemm W) G).bind _ = _
    rw [h1]
    simp only [Option.bind_some]
    rw [if_pos (by omega)]
    rfl

end Libmorph
