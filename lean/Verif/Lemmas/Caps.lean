import Verif.Spec.Caps
import Verif.Lemmas.Bytes
import Mathlib.Tactic.IntervalCases
import Mathlib.Tactic.Ring
namespace Libmorph

theorem engTab_ok : engTab.Ok := by
  refine ⟨?_, ?_, by decide +kernel⟩
  · intro b
    by_cases h : b < 256
    · have : ∀ b < 256, engTab.ctype b ≤ 3 := by decide +kernel
      exact this b h
    · have : engTab.ctype b = 3 := by
        have hl : engCharTypeMatrix.length = 256 := by decide +kernel
        simp only [engTab]; rw [List.getD_eq_getElem?_getD, List.getElem?_eq_none (by omega)]; rfl
      omega
  · intro b hb
    by_cases h : b < 256
    · have : ∀ b < 256, engTab.ctype b = ctDlm → engTab.lower b = b := by decide +kernel
      exact this b h hb
    · have : engTab.ctype b = 3 := by
        have hl : engCharTypeMatrix.length = 256 := by decide +kernel
        simp only [engTab]; rw [List.getD_eq_getElem?_getD, List.getElem?_eq_none (by omega)]; rfl
      rw [this] at hb; simp at hb

theorem rusTab_ok : rusTab.Ok := by
  refine ⟨?_, ?_, by decide +kernel⟩
  · intro b
    by_cases h : b < 256
    · have : ∀ b < 256, rusTab.ctype b ≤ 3 := by decide +kernel
      exact this b h
    · have : rusTab.ctype b = 3 := by
        have hl : rusCharTypeMatrix.length = 256 := by decide +kernel
        simp only [rusTab]; rw [List.getD_eq_getElem?_getD, List.getElem?_eq_none (by omega)]; rfl
      omega
  · intro b hb
    by_cases h : b < 256
    · have : ∀ b < 256, rusTab.ctype b = ctDlm → rusTab.lower b = b := by decide +kernel
      exact this b h hb
    · have : rusTab.ctype b = 3 := by
        have hl : rusCharTypeMatrix.length = 256 := by decide +kernel
        simp only [rusTab]; rw [List.getD_eq_getElem?_getD, List.getElem?_eq_none (by omega)]; rfl
      rw [this] at hb; simp at hb

/-! ### The automaton -/

/-- State after a run of characters. -/
def capRun (T : CharTab) (st : Nat) (p : List Byte) : Nat := p.foldl (fun st c => capNext st (T.ctype c)) st

theorem capRun_5 (T : CharTab) (hT : T.Ok) (p : List Byte) : capRun T 5 p = 5 := by
  induction p with
  | nil => rfl
  | cons c p ih =>
    have h := hT.types c
    have : capNext 5 (T.ctype c) = 5 := by
      generalize T.ctype c = k at h; interval_cases k <;> rfl
    simp only [capRun, List.foldl_cons] at ih ⊢
    rw [this]; exact ih

theorem capRun_stay (T : CharTab) (hT : T.Ok) (st ty : Nat)
    (h1 : capNext st ty = st) (h2 : ∀ k ≤ 3, k ≠ 2 → k ≠ ty → capNext st k = 5)
    (p : List Byte) (hp : ∀ c ∈ p, T.ctype c ≠ ctDlm) :
    capRun T st p = if p.all (fun c => T.ctype c = ty) then st else 5 := by
  induction p with
  | nil => simp [capRun]
  | cons c p ih =>
    have ih := ih (fun x hx => hp x (by simp [hx]))
    have hc := hp c (by simp)
    by_cases hty : T.ctype c = ty
    · simp only [capRun, List.foldl_cons] at ih ⊢
      rw [hty, h1, ih]; simp [hty]
    · have : capNext st (T.ctype c) = 5 := h2 _ (hT.types c) hc hty
      have h5 := capRun_5 T hT p
      simp only [capRun, List.foldl_cons] at h5 ⊢
      rw [this, h5]; simp [hty]

theorem capRun_1 (T : CharTab) (hT : T.Ok) (p : List Byte) (hp : ∀ c ∈ p, T.ctype c ≠ ctDlm) :
    capRun T 1 p = if p.all (fun c => T.ctype c = ctRegular) then 1 else 5 :=
  capRun_stay T hT 1 1 rfl (by intro k h1 h2 h3; interval_cases k <;> first | rfl | omega) p hp

theorem capRun_2 (T : CharTab) (hT : T.Ok) (p : List Byte) (hp : ∀ c ∈ p, T.ctype c ≠ ctDlm) :
    capRun T 2 p = if p.all (fun c => T.ctype c = ctRegular) then 2 else 5 :=
  capRun_stay T hT 2 1 rfl (by intro k h1 h2 h3; interval_cases k <;> first | rfl | omega) p hp

theorem capRun_3 (T : CharTab) (hT : T.Ok) (p : List Byte) (hp : ∀ c ∈ p, T.ctype c ≠ ctDlm) :
    capRun T 3 p = if p.all (fun c => T.ctype c = ctCapital) then 3 else 5 :=
  capRun_stay T hT 3 0 rfl (by intro k h1 h2 h3; interval_cases k <;> first | rfl | omega) p hp

/-- The automaton computes the kind of a part. -/
theorem capRun_kind (T : CharTab) (hT : T.Ok) (p : List Byte) (hp : ∀ c ∈ p, T.ctype c ≠ ctDlm) :
    capNext (capRun T 0 p) ctDlm = match partKind T p with | none => 5 | some k => k + 1 := by
  cases p with
  | nil => rfl
  | cons c p =>
    have hc := hp c (by simp)
    have hp' : ∀ c ∈ p, T.ctype c ≠ ctDlm := fun x hx => hp x (by simp [hx])
    have hle := hT.types c
    have hcases : T.ctype c = 0 ∨ T.ctype c = 1 ∨ T.ctype c = 3 := by
      simp only [ctDlm] at hc; omega
    have hrun : ∀ st, capRun T st (c :: p) = capRun T (capNext st (T.ctype c)) p := fun st => rfl
    rcases hcases with h | h | h
    · -- capital first
      rw [hrun, h, show capNext 0 0 = 4 from rfl]
      cases p with
      | nil => simp [capRun, partKind, h, ctRegular, ctCapital]; rfl
      | cons d q =>
        have hd := hp' d (by simp)
        have hq : ∀ c ∈ q, T.ctype c ≠ ctDlm := fun x hx => hp' x (by simp [hx])
        have hdle := hT.types d
        have hdc : T.ctype d = 0 ∨ T.ctype d = 1 ∨ T.ctype d = 3 := by
          simp only [ctDlm] at hd; omega
        have hrun' : ∀ st, capRun T st (d :: q) = capRun T (capNext st (T.ctype d)) q := fun st => rfl
        rcases hdc with h' | h' | h'
        · rw [hrun', h', show capNext 4 0 = 3 from rfl, capRun_3 T hT q hq]
          by_cases ha : q.all (fun c => T.ctype c = ctCapital)
          · simp only [ha, if_true, partKind, List.all_cons, h, h', ctCapital, ctRegular]
            simp [show capNext 3 2 = 3 from rfl]
          · simp only [ha, partKind, List.all_cons, h, h', ctCapital, ctRegular]
            simp [show capNext 5 2 = 5 from rfl, h']
        · rw [hrun', h', show capNext 4 1 = 2 from rfl, capRun_2 T hT q hq]
          by_cases ha : q.all (fun c => T.ctype c = ctRegular)
          · simp only [ha, if_true, partKind, List.all_cons, h, h', ctCapital, ctRegular]
            rw [if_neg (by simp), if_neg (by simp), if_neg (by simp), if_pos (by simp [h, h']; simpa [ctRegular] using ha)]
            rfl
          · simp only [ha, partKind, List.all_cons, h, h', ctCapital, ctRegular]
            have e : ((Option.all (fun c => decide (T.ctype c = 0)) (c :: d :: q).head? &&
              (c :: d :: q).tail.all fun c => decide (T.ctype c = 1)) = true) ↔ False := by
              simp only [ctRegular] at ha
              simp [h, h']; simpa using ha
            simp only [e, if_false]
            simp [show capNext 5 2 = 5 from rfl]
        · rw [hrun', h', show capNext 4 3 = 5 from rfl, capRun_5 T hT q]
          simp [partKind, h, h', ctCapital, ctRegular, show capNext 5 2 = 5 from rfl]
    · rw [hrun, h, show capNext 0 1 = 1 from rfl, capRun_1 T hT p hp']
      by_cases ha : p.all (fun c => T.ctype c = ctRegular)
      · simp only [ha, if_true, partKind, List.all_cons, h, ctRegular, ctCapital]
        simp [show capNext 1 2 = 1 from rfl]
      · simp only [ha, partKind, List.all_cons, h, ctCapital, ctRegular]
        simp [show capNext 5 2 = 5 from rfl, h]
    · rw [hrun, h, show capNext 0 3 = 5 from rfl, capRun_5 T hT p]
      simp [partKind, h, ctCapital, ctRegular, show capNext 5 2 = 5 from rfl]

/-! ### One part -/

/-- The first part of a word. -/
def firstPart (T : CharTab) (w : List Byte) : List Byte := w.takeWhile fun c => T.ctype c ≠ ctDlm
/-- What follows the first part (starting with the delimiter). -/
def afterPart (T : CharTab) (w : List Byte) : List Byte := w.dropWhile fun c => T.ctype c ≠ ctDlm

theorem capPart_eq (T : CharTab) (room : Nat) (src : List Byte) (sc : Nat) :
    (capPart T room src sc).2.2.2 = room - (firstPart T src).length ∧
    ((firstPart T src).length < room →
      capPart T room src sc = ((firstPart T src).map T.lower, capRun T sc (firstPart T src), afterPart T src,
        room - (firstPart T src).length)) := by
  induction room generalizing src sc with
  | zero => simp [capPart]
  | succ room ih =>
    cases src with
    | nil => simp [capPart, firstPart, afterPart, capRun]
    | cons c src =>
      simp only [capPart]
      by_cases h : T.ctype c = ctDlm
      · simp [h, firstPart, afterPart, capRun]
      · obtain ⟨h1, h2⟩ := ih src (capNext sc (T.ctype c))
        have hf : firstPart T (c :: src) = c :: firstPart T src := by simp [firstPart, h]
        have ha : afterPart T (c :: src) = afterPart T src := by simp [afterPart, h]
        rw [if_neg h, hf, ha]
        refine ⟨?_, ?_⟩
        · simp only [List.length_cons]
          rw [show room + 1 - ((firstPart T src).length + 1) = room - (firstPart T src).length by omega]
          exact h1
        · intro hl
          simp only [List.length_cons] at hl ⊢
          rw [h2 (by omega)]
          simp only [List.map_cons, Prod.mk.injEq, true_and]
          refine ⟨rfl, ?_⟩
          omega

theorem firstPart_after (T : CharTab) (w : List Byte) : firstPart T w ++ afterPart T w = w :=
  List.takeWhile_append_dropWhile

theorem firstPart_nodlm (T : CharTab) (w : List Byte) : ∀ c ∈ firstPart T w, T.ctype c ≠ ctDlm := by
  intro c hc
  induction w with
  | nil => simp [firstPart] at hc
  | cons d w ih =>
    by_cases h : T.ctype d = ctDlm
    · simp [firstPart, h] at hc
    · have hf : firstPart T (d :: w) = d :: firstPart T w := by simp [firstPart, h]
      rw [hf] at hc
      rcases List.mem_cons.1 hc with rfl | h'
      · exact h
      · exact ih h'

theorem afterPart_head (T : CharTab) (w : List Byte) {d : Byte} {r : List Byte} (h : afterPart T w = d :: r) :
    T.ctype d = ctDlm := by
  have := List.head?_dropWhile_not (fun c => decide (T.ctype c ≠ ctDlm)) w
  simp only [afterPart] at h
  rw [h] at this
  simpa using this

/-- The parts that the analysis looks at: all but an empty last one. -/
def checkedParts (T : CharTab) : List Byte → List (List Byte)
  | [] => []
  | w => if (wordParts T w).getLast? = some [] then (wordParts T w).dropLast else wordParts T w

theorem wordParts_ne (T : CharTab) (w : List Byte) : wordParts T w ≠ [] := by
  cases w with
  | nil => simp [wordParts]
  | cons c w =>
    simp only [wordParts]
    split
    · simp
    · split <;> simp

theorem wordParts_eq (T : CharTab) (w : List Byte) :
    wordParts T w = match afterPart T w with
      | [] => [firstPart T w]
      | _ :: r => firstPart T w :: wordParts T r := by
  induction w with
  | nil => simp [wordParts, afterPart, firstPart]
  | cons c w ih =>
    simp only [wordParts]
    by_cases h : T.ctype c = ctDlm
    · simp [h, afterPart, firstPart]
    · have hf : firstPart T (c :: w) = c :: firstPart T w := by simp [firstPart, h]
      have ha : afterPart T (c :: w) = afterPart T w := by simp [afterPart, h]
      rw [if_neg h, hf, ha, ih]
      cases afterPart T w <;> rfl

theorem checkedParts_eq (T : CharTab) (c : Byte) (w : List Byte) :
    checkedParts T (c :: w) = match afterPart T (c :: w) with
      | [] => [firstPart T (c :: w)]
      | _ :: r => firstPart T (c :: w) :: checkedParts T r := by
  simp only [checkedParts]
  rw [wordParts_eq]
  cases h : afterPart T (c :: w) with
  | nil =>
    simp only [List.getLast?_singleton, Option.some.injEq]
    rw [if_neg]
    intro he
    have := firstPart_after T (c :: w)
    rw [he, h] at this; simp at this
  | cons d r =>
    simp only
    cases r with
    | nil => simp [checkedParts, wordParts]
    | cons e r =>
      have hne := wordParts_ne T (e :: r)
      simp only [checkedParts]
      rw [List.getLast?_cons, List.dropLast_cons_of_ne_nil hne]
      cases hl : (wordParts T (e :: r)).getLast? with
      | none => rw [List.getLast?_eq_none_iff] at hl; exact absurd hl hne
      | some x =>
        simp only [Option.getD_some, Option.some.injEq]
        split <;> rfl

theorem shl_two (k n : Nat) : k <<< (2 * n) = k * 4 ^ n := by
  rw [Nat.shiftLeft_eq, Nat.pow_mul]

/-- The number of delimiters in a word. -/
def dlmCount (T : CharTab) (w : List Byte) : Nat := (w.filter fun c => T.ctype c = ctDlm).length

theorem wordParts_length (T : CharTab) (w : List Byte) : (wordParts T w).length = dlmCount T w + 1 := by
  induction w with
  | nil => simp [wordParts, dlmCount]
  | cons c w ih =>
    simp only [wordParts, dlmCount] at *
    by_cases h : T.ctype c = ctDlm
    · simp [h, ih]
    · simp only [h, if_false, List.filter_cons]
      cases hw : wordParts T w with
      | nil => exact absurd hw (wordParts_ne T w)
      | cons p ps => rw [hw] at ih; simpa using ih

theorem capLoop_cons (T : CharTab) (room : Nat) (c : Byte) (src : List Byte) (cdefis scheme : Nat) (bvalid : Bool)
    (out o : List Byte) (sc : Nat) (A : List Byte) (room1 : Nat)
    (h : capPart T (room + 1) (c :: src) 0 = (o, sc, A, room1)) :
    capLoop T (room + 1) (c :: src) cdefis scheme bvalid out =
      if room1 = 0 then some none
      else if 32 ≤ 2 * cdefis then none
      else match A with
        | [] => capLoop T room1 [] cdefis (scheme ||| (((capNext sc ctDlm - 1) <<< (2 * cdefis)) % 2 ^ 32))
            (bvalid && capNext sc ctDlm != 5) (out ++ o)
        | d :: src2 =>
          if T.ctype d = ctDlm then
            capLoop T (room1 - 1) src2 (cdefis + 1) (scheme ||| (((capNext sc ctDlm - 1) <<< (2 * cdefis)) % 2 ^ 32))
              (bvalid && capNext sc ctDlm != 5) (out ++ o ++ [d])
          else some none := by
  rw [capLoop]
  have h1 : (capPart T (room + 1) (c :: src) 0).1 = o := by rw [h]
  have h2 : (capPart T (room + 1) (c :: src) 0).2.1 = sc := by rw [h]
  have h3 : (capPart T (room + 1) (c :: src) 0).2.2.1 = A := by rw [h]
  have h4 : (capPart T (room + 1) (c :: src) 0).2.2.2 = room1 := by rw [h]
  simp only [h1, h2, h4]
  split
  · rfl
  · split
    · rfl
    · split
      · rename_i h5
        rw [h3] at h5; subst h5; rfl
      · rename_i h5
        rw [h3] at h5; subst h5; rfl

theorem capLoop_eq (T : CharTab) (hT : T.Ok) (n : Nat) : ∀ (src : List Byte), src.length ≤ n →
    ∀ (room cdefis scheme : Nat) (bvalid : Bool) (out : List Byte),
    cdefis + (checkedParts T src).length ≤ 16 →
    (bvalid = true → scheme < 4 ^ cdefis) →
    (room ≤ src.length → capLoop T room src cdefis scheme bvalid out = some none) ∧
    (src.length < room → ∃ sch, capLoop T room src cdefis scheme bvalid out
        = some (some (out ++ src.map T.lower, cdefis + dlmCount T src, sch,
            bvalid && (checkedParts T src).all fun p => (partKind T p).isSome)) ∧
      (bvalid = true → (∀ p ∈ checkedParts T src, (partKind T p).isSome) →
        sch = scheme + 4 ^ cdefis * packKinds ((checkedParts T src).map fun p => (partKind T p).getD 0))) := by
  induction n with
  | zero =>
    intro src hsrc room cdefis scheme bvalid out _ _
    have : src = [] := List.length_eq_zero_iff.1 (by omega)
    subst this
    cases room with
    | zero => simp [capLoop]
    | succ room => simp [capLoop, checkedParts, dlmCount, packKinds]
  | succ n ih =>
    intro src hsrc room cdefis scheme bvalid out hparts hsch
    cases src with
    | nil =>
      cases room with
      | zero => simp [capLoop]
      | succ room => simp [capLoop, checkedParts, dlmCount, packKinds]
    | cons c src =>
      cases room with
      | zero => simp [capLoop]
      | succ room =>
        have hcp := capPart_eq T (room + 1) (c :: src) 0
        have hsplit := congrArg List.length (firstPart_after T (c :: src))
        have hnd := firstPart_nodlm T (c :: src)
        have hkind := capRun_kind T hT _ hnd
        rw [checkedParts_eq] at hparts ⊢
        have hlow : (c :: src).map T.lower = (firstPart T (c :: src)).map T.lower ++ (afterPart T (c :: src)).map T.lower := by
          rw [← List.map_append, firstPart_after]
        have hcnt : dlmCount T (c :: src) = dlmCount T (afterPart T (c :: src)) := by
          conv_lhs => rw [← firstPart_after T (c :: src)]
          simp only [dlmCount, List.filter_append, List.length_append]
          rw [List.filter_eq_nil_iff.2 (by intro x hx; simpa using hnd x hx)]
          simp
        generalize hF : firstPart T (c :: src) = F at *
        generalize hA : afterPart T (c :: src) = A at *
        rw [List.length_append, List.length_cons] at hsplit
        by_cases hroom : F.length < room + 1
        · -- the part fits
          have h2 := hcp.2 hroom
          rw [capLoop_cons T room c src cdefis scheme bvalid out _ _ _ _ h2, if_neg (by omega)]
          have hc16 : 1 ≤ (match A with | [] => [F] | _ :: r => F :: checkedParts T r).length := by
            cases A <;> simp
          rw [if_neg (by omega)]
          cases hk : partKind T F with
          | none =>
            rw [hk] at hkind
            simp only at hkind
            have hb : (bvalid && (capNext (capRun T 0 F) ctDlm != 5)) = false := by rw [hkind]; simp
            simp only [hb]
            cases A with
            | nil =>
              simp only [List.length_nil] at hsplit
              obtain ⟨i1, i2⟩ := ih [] (by simp) (room + 1 - F.length) cdefis
                (scheme ||| ((capNext (capRun T 0 F) ctDlm - 1) <<< (2 * cdefis) % 2 ^ 32)) false (out ++ F.map T.lower)
                (by simp [checkedParts]; omega) (by simp)
              refine ⟨?_, ?_⟩
              · intro hr; simp only [List.length_cons] at hr; omega
              · intro hr
                obtain ⟨sch, hs1, hs2⟩ := i2 (by simp only [List.length_nil]; omega)
                refine ⟨sch, ?_, ?_⟩
                · rw [hs1, hlow, hcnt]; simp [hk, checkedParts]
                · intro _ hall; have := hall F (by simp); rw [hk] at this; simp at this
            | cons d r =>
              have hd : T.ctype d = ctDlm := afterPart_head T _ hA
              simp only [List.length_cons] at hsplit
              simp only [List.length_cons] at hsrc
              obtain ⟨i1, i2⟩ := ih r (by omega) (room + 1 - F.length - 1) (cdefis + 1)
                (scheme ||| ((capNext (capRun T 0 F) ctDlm - 1) <<< (2 * cdefis) % 2 ^ 32)) false (out ++ F.map T.lower ++ [d])
                (by simp only [List.length_cons] at hparts; omega) (by simp)
              simp only [if_pos hd]
              refine ⟨?_, ?_⟩
              · intro hr; simp only [List.length_cons] at hr; exact i1 (by omega)
              · intro hr
                simp only [List.length_cons] at hr
                obtain ⟨sch, hs1, hs2⟩ := i2 (by omega)
                refine ⟨sch, ?_, ?_⟩
                · rw [hs1, hlow, hcnt]
                  simp only [List.map_cons, hT.dlm d hd, List.append_assoc, List.cons_append, List.nil_append,
                    Bool.false_and, List.all_cons, hk, Option.isSome_none, Bool.and_false, dlmCount,
                    List.filter_cons, hd, decide_true, if_true, List.length_cons]
                  rw [Nat.add_assoc, Nat.add_comm 1]
                · intro _ hall; have := hall F (by simp); rw [hk] at this; simp at this
          | some k =>
            have hk2 : k ≤ 2 := by
              simp only [partKind] at hk
              split at hk <;> try (simp at hk; done)
              split at hk
              · simp at hk; omega
              · split at hk
                · simp at hk; omega
                · split at hk
                  · simp at hk; omega
                  · simp at hk
            rw [hk] at hkind
            simp only at hkind
            have hb : (bvalid && (capNext (capRun T 0 F) ctDlm != 5)) = bvalid := by
              rw [hkind]
              have : (k + 1 != 5) = true := by simp; omega
              rw [this]; simp
            have hpow : 4 ^ cdefis ≤ 4 ^ 15 := Nat.pow_le_pow_right (by omega) (by omega)
            have hshift : (k <<< (2 * cdefis)) % 2 ^ 32 = k * 4 ^ cdefis := by
              rw [shl_two, Nat.mod_eq_of_lt]
              calc k * 4 ^ cdefis ≤ 2 * 4 ^ 15 := Nat.mul_le_mul hk2 hpow
                _ < 2 ^ 32 := by norm_num
            have hor : bvalid = true → scheme ||| (k * 4 ^ cdefis) = scheme + k * 4 ^ cdefis := by
              intro hbv
              have := or_shift_eq_add (acc := scheme) (m := k) (k := 2 * cdefis)
                (by rw [Nat.pow_mul]; exact hsch hbv)
              rw [shl_two] at this
              rw [this, Nat.pow_mul]
            have hsch' : bvalid = true → scheme ||| (k * 4 ^ cdefis) < 4 ^ (cdefis + 1) := by
              intro hbv
              rw [hor hbv, Nat.pow_succ]
              have := hsch hbv
              have : k * 4 ^ cdefis ≤ 2 * 4 ^ cdefis := Nat.mul_le_mul_right _ hk2
              omega
            rw [hb]; simp only [hkind, show k + 1 - 1 = k from rfl, hshift]
            cases A with
            | nil =>
              simp only [List.length_nil] at hsplit
              rw [capLoop.eq_def]
              have : ∃ q, room + 1 - F.length = q + 1 := ⟨room - F.length, by omega⟩
              obtain ⟨q, hq⟩ := this
              simp only [hq]
              refine ⟨?_, ?_⟩
              · intro hr; simp only [List.length_cons] at hr; omega
              · intro hr
                refine ⟨scheme ||| (k * 4 ^ cdefis), ?_, ?_⟩
                · rw [hlow, hcnt]
                  simp only [List.map_nil, List.append_nil, List.all_cons, hk, List.all_nil, Option.isSome_some, Bool.and_true,
                    dlmCount, List.filter_nil, List.length_nil, Nat.add_zero]
                · intro hbv _
                  rw [hor hbv]
                  simp [packKinds, hk, Nat.mul_comm]
            | cons d r =>
              have hd : T.ctype d = ctDlm := afterPart_head T _ hA
              simp only [List.length_cons] at hsplit
              simp only [List.length_cons] at hsrc
              obtain ⟨i1, i2⟩ := ih r (by omega) (room + 1 - F.length - 1) (cdefis + 1)
                (scheme ||| (k * 4 ^ cdefis)) bvalid (out ++ F.map T.lower ++ [d])
                (by simp only [List.length_cons] at hparts; omega) hsch'
              simp only [if_pos hd]
              refine ⟨?_, ?_⟩
              · intro hr; simp only [List.length_cons] at hr; exact i1 (by omega)
              · intro hr
                simp only [List.length_cons] at hr
                obtain ⟨sch, hs1, hs2⟩ := i2 (by omega)
                refine ⟨sch, ?_, ?_⟩
                · rw [hs1, hlow, hcnt]
                  simp only [List.map_cons, hT.dlm d hd, List.append_assoc, List.cons_append, List.nil_append,
                    List.all_cons, hk, Option.isSome_some, Bool.true_and, dlmCount,
                    List.filter_cons, hd, decide_true, if_true, List.length_cons]
                  rw [Nat.add_assoc, Nat.add_comm 1]
                · intro hbv hall
                  rw [hs2 hbv (fun p hp => hall p (by simp [hp])), hor hbv]
                  simp only [List.map_cons, packKinds, hk, Option.getD_some, Nat.pow_succ]
                  ring
        · have hz : (capPart T (room + 1) (c :: src) 0).2.2.2 = 0 := by rw [hcp.1]; omega
          have hq : capLoop T (room + 1) (c :: src) cdefis scheme bvalid out = some none := by
            rcases hr0 : capPart T (room + 1) (c :: src) 0 with ⟨o, sc, A', r1⟩
            rw [capLoop_cons T room c src cdefis scheme bvalid out o sc A' r1 hr0]
            rw [hr0] at hz
            rw [if_pos hz]
          simp only [List.length_cons]
          refine ⟨fun _ => hq, fun hr => ?_⟩
          omega

end Libmorph
