import Verif.Lemmas.WideLemm
/-
The wide interfaces for forms and matches.
-/
namespace Libmorph

variable {C : Codec} {byte : Nat → Byte} {wide : Byte → Nat}

/-- What the wide BuildForm and FindForms make of an outcome of the byte interface. -/
theorem wideLoop_outcome (hC : C.Ok byte wide) {r : Option (Int × Option (List Byte))} {fs : List (List Byte)} {scratch : Prop}
    (hz : ∀ f ∈ fs, 0 ∉ f) {B : List Byte} (h : FormOutcome r fs scratch B) (out : List Nat) (hB : B.length ≤ out.length) :
    WideFormOutcome wide (r.bind fun x => if x.1 ≤ 0 then some (x.1, some out) else
      (wideLoop C x.1.toNat (x.2.getD []) out 0).bind fun o => some (x.1, some o)) fs
      (scratch ∧ (fs = [] ∨ (packed fs).length + 1 ≤ B.length)) out := by
  obtain ⟨h1, h2, h3⟩ := h
  constructor
  · rintro ⟨hs, hfit⟩
    by_cases h0 : fs = []
    · rw [h1 h0 hs, h0]; simp [widePacked]
    · have hfit := hfit.resolve_left h0
      rw [h2 h0 hs hfit]
      have hpos := List.length_pos_iff.2 h0
      simp only [Option.bind_some, Int.toNat_natCast, Option.getD_some]
      rw [if_neg (by omega)]
      have := wideLoop_eq hC fs hz (0 :: B.drop ((packed fs).length + 1)) [] out (by omega)
      simp only [List.nil_append, List.length_nil] at this
      rw [this, Option.bind_some, widePacked_length]
  · intro hbad
    by_cases hs : scratch
    · have hbad : ¬ (fs = [] ∨ (packed fs).length + 1 ≤ B.length) := fun hh => hbad ⟨hs, hh⟩
      obtain ⟨b, hb, -⟩ := h3 (Or.inr ⟨fun h0 => hbad (Or.inl h0), by
        have : ¬ (packed fs).length + 1 ≤ B.length := fun hh => hbad (Or.inr hh)
        omega⟩)
      rw [hb]; rfl
    · obtain ⟨b, hb, -⟩ := h3 (Or.inl hs)
      rw [hb]; rfl

/-- The buffer given to the byte interface. -/
def formRoom (szform : List Byte) (out : List Nat) : List Byte := szform.take (min out.length 98 - 1)

theorem formRoom_length {szform : List Byte} (h : szform.length = 98) (out : List Nat) :
    (formRoom szform out).length = min out.length 98 - 1 := by
  rw [formRoom, List.length_take]; omega

/-- The wide BuildForm over a byte BuildForm. -/
theorem wideBuildForm_eq (hC : C.Ok byte wide) {build : Option (List Byte) → Option (Int × Option (List Byte))} {fs : List (List Byte)}
    {scratch : Prop} (hz : ∀ f ∈ fs, 0 ∉ f) {szform : List Byte} (hs : szform.length = 98) (out : List Nat) (ho : out ≠ [])
    (h : FormOutcome (build (some (formRoom szform out))) fs scratch (formRoom szform out)) :
    WideFormOutcome wide (wideBuildForm C build szform (some out)) fs
      (scratch ∧ (fs = [] ∨ (packed fs).length + 2 ≤ min out.length 98)) out := by
  have := wideLoop_outcome hC hz h out (by rw [formRoom_length hs]; omega)
  rw [formRoom_length hs] at this
  have hl := List.length_pos_iff.2 ho
  have e : ((packed fs).length + 1 ≤ min out.length 98 - 1) ↔ ((packed fs).length + 2 ≤ min out.length 98) := by omega
  rw [e] at this
  unfold wideBuildForm
  simp only [if_neg (show ¬ out.length = 0 by omega), Option.bind_eq_bind]
  exact this

/-- The wide FindForms over a byte FindForms. -/
theorem wideFindForms_eq (hC : C.Ok byte wide) {find : Option (List Byte) → List Byte → Option (Int × Option (List Byte))} {fs : List (List Byte)}
    {scratch : Prop} (hz : ∀ f ∈ fs, 0 ∉ f) {szform : List Byte} (hs : szform.length = 98) (out : List Nat) (ho : out ≠ [])
    (w : List Nat) (counted : Bool) (hw : w ≠ []) {s : List Byte} (hn : C.narrow (if counted then min w.length 98 else 98) w = some s)
    (h : FormOutcome (find (some (formRoom szform out)) s) fs scratch (formRoom szform out)) :
    WideFormOutcome wide (wideFindForms C find szform (some out) w counted) fs
      (scratch ∧ (fs = [] ∨ (packed fs).length + 2 ≤ min out.length 98)) out := by
  have := wideLoop_outcome hC hz h out (by rw [formRoom_length hs]; omega)
  rw [formRoom_length hs] at this
  have hl := List.length_pos_iff.2 ho
  have hl' := List.length_pos_iff.2 hw
  have e : ((packed fs).length + 1 ≤ min out.length 98 - 1) ↔ ((packed fs).length + 2 ≤ min out.length 98) := by omega
  rw [e] at this
  unfold wideFindForms
  have hc : ¬ ((decide (out.length = 0) || counted && decide (w.length = 0)) = true) := by
    simp only [Bool.or_eq_true, decide_eq_true_eq, Bool.and_eq_true]; omega
  simp only [if_neg hc, hn, Option.bind_eq_bind]
  exact this

/-- The strings the client of the wide search gets for a call. -/
theorem wideMatches_eq (hC : C.Ok byte wide) : ∀ (ms : List StrMatch) (x y : List Nat) (done : List (Nat × Nat × Nat)),
    (∀ m ∈ ms, 0 ∉ m.text ∧ m.text.length < 48) → ms.length + done.length ≤ 512 → 48 * ms.length ≤ y.length →
    (∀ d ∈ done, d.1 + d.2.1 ≤ x.length) →
    ∃ y' done', wideMatches C ms (x ++ y) x.length done = some (x ++ y', done ++ done') ∧
      (done'.map fun d => (⟨((x ++ y').drop d.1).take d.2.1, d.2.2⟩ : StrMatchW)) = ms.map fun m => ⟨m.text.map wide, m.id⟩ := by
  intro ms
  induction ms with
  | nil => intro x y done _ _ _ _; exact ⟨y, [], by simp [wideMatches], rfl⟩
  | cons m ms ih =>
    intro x y done hm hlen hy hd
    obtain ⟨m1, m2⟩ := hm m (by simp)
    simp only [List.length_cons] at hlen hy
    have hpk1 : pokes (x ++ y) x.length (m.text.map wide ++ [0]) = some (x ++ (m.text.map wide ++ [0]) ++ y.drop (m.text.length + 1)) := by
      rw [pokes, if_pos (by simp; omega)]
      simp [List.drop_append]
    have hpk2 : pokes (x ++ (m.text.map wide ++ [0]) ++ y.drop (m.text.length + 1)) (x.length + m.text.length) [0] =
        some (x ++ (m.text.map wide ++ [0]) ++ y.drop (m.text.length + 1)) := by
      rw [pokes, if_pos (by simp; omega)]
      have e : x ++ (m.text.map wide ++ [0]) ++ y.drop (m.text.length + 1) = (x ++ m.text.map wide) ++ ([0] ++ y.drop (m.text.length + 1)) := by simp
      have e2 : x.length + m.text.length = (x ++ m.text.map wide).length := by simp
      rw [e, e2, List.take_left, ← List.drop_drop, List.drop_left]
      simp
    rw [wideMatches, if_pos (by omega), hC.widen _ _ (by simp; omega) m1]
    simp only [Option.bind_eq_bind, hpk1, Option.bind_some, hpk2]
    obtain ⟨y', done', h1, h2⟩ := ih (x ++ (m.text.map wide ++ [0])) (y.drop (m.text.length + 1)) (done ++ [(x.length, m.text.length, m.id)])
      (fun m' hm' => hm m' (by simp [hm'])) (by simp; omega) (by rw [List.length_drop]; omega)
      (by
        intro d hd'
        rcases List.mem_append.1 hd' with h | h
        · have := hd d h; simp; omega
        · simp only [List.mem_singleton] at h; subst h; simp)
    have e : (x ++ (m.text.map wide ++ [0])).length = x.length + m.text.length + 1 := by simp; omega
    rw [e] at h1
    refine ⟨m.text.map wide ++ [0] ++ y', (x.length, m.text.length, m.id) :: done', ?_, ?_⟩
    · rw [h1]; simp
    · rw [List.map_cons, List.map_cons]
      congr 1
      · congr 1
        rw [List.drop_left, List.append_assoc, List.take_left' (by simp)]
      · rw [← h2]; simp

theorem wideAddLexeme_eq (hC : C.Ok byte wide) (strbuf : List Nat) (hb : strbuf.length = 0x200 * 0x30) (ms : List StrMatch)
    (hm : ∀ m ∈ ms, 0 ∉ m.text ∧ m.text.length < 48) (hlen : ms.length ≤ 512) :
    wideAddLexeme C strbuf ms = some (ms.map fun m => ⟨m.text.map wide, m.id⟩) := by
  obtain ⟨y', done', h1, h2⟩ := wideMatches_eq hC ms [] strbuf [] hm (by simpa using hlen) (by omega) (by simp)
  simp only [List.nil_append, List.length_nil] at h1 h2
  rw [wideAddLexeme, h1]
  simp only [Option.bind_eq_bind, Option.bind_some, h2]
  rfl

theorem mapM_some {α β : Type} (f : α → Option β) (g : α → β) : ∀ l : List α, (∀ a ∈ l, f a = some (g a)) → l.mapM f = some (l.map g) := by
  intro l
  induction l with
  | nil => intro _; rfl
  | cons a l ih =>
    intro h
    rw [List.mapM_cons, h a (by simp), ih (fun b hb => h b (by simp [hb]))]
    rfl

/-- The wide search over a byte search whose calls are small. -/
theorem wideFindMatch_eq (hC : C.Ok byte wide) (strbuf : List Nat) (hb : strbuf.length = 0x200 * 0x30)
    {find : (List (Nat × List StrMatch) → Int) → List Byte → Option (Int × List (Nat × List StrMatch))}
    (client : List (Nat × List StrMatchW) → Int) (w : List Nat) (hne : w ≠ []) (hlen : w.length < 48)
    (P : List (Nat × List StrMatch) → Prop)
    (hfind : ∀ cl, ∃ cs, find cl (w.map byte) = some (if cs = [] then 0 else cl cs, cs) ∧ P cs ∧
      ∀ c ∈ cs, c.2.length ≤ 512 ∧ ∀ m ∈ c.2, 0 ∉ m.text ∧ m.text.length < 48) :
    ∃ cs, P cs ∧ wideFindMatch C strbuf find client w = some (if cs = [] then 0 else client (cs.map (wideCall wide)), cs.map (wideCall wide)) := by
  obtain ⟨s, hn⟩ := Option.isSome_iff_exists.1 (hC.narrow_room 0x30 w hlen)
  obtain ⟨hn1, -⟩ := hC.narrow_some _ _ _ hn
  subst hn1
  obtain ⟨cs, h1, h2, h3⟩ := hfind (fun cs => client ((cs.mapM fun c => (wideAddLexeme C strbuf c.2).map fun x => (c.1, x)).getD []))
  have h4 : cs.mapM (fun c => (wideAddLexeme C strbuf c.2).map fun x => (c.1, x)) = some (cs.map (wideCall wide)) := by
    refine mapM_some _ _ cs ?_
    intro c hc
    obtain ⟨k1, k2⟩ := h3 c hc
    rw [wideAddLexeme_eq hC strbuf hb c.2 k2 k1]
    rfl
  refine ⟨cs, h2, ?_⟩
  rw [wideFindMatch, if_neg (by simpa using hne), hn]
  simp only [Option.bind_eq_bind, h1, Option.bind_some, h4, Option.getD_some]
  rfl

end Libmorph
