import Verif.Spec.Dict
import Verif.Lemmas.Stems
import Verif.Props.C02
namespace Libmorph
variable {σ ρ : Type}

theorem foldl_insEntry_length (l : List Entry) (acc : List Entry) :
    (l.foldl (fun acc e => insEntry e acc) acc).length = l.length + acc.length := by
  induction l generalizing acc with
  | nil => simp
  | cons e l ih => simp only [List.foldl_cons, ih, insEntry_length, List.length_cons]; omega

theorem fileAll_desc (l : List (List Byte × Entry)) : (fileAll l).kids.Desc := by
  rw [fileAll_eq]; exact (runHist_desc_find _).1

/-- Values of a tree are found under some key. -/
theorem Tree.all_of_find {α : Type} {P : α → Prop} {t : Tree α} (hd : t.kids.Desc)
    (h : ∀ k x, t.find k = some x → P x) : t.All P := by
  have hent : ∀ x k, (x, k) ∈ t.entries → P x := fun x k hm => h k x ((Tree.mem_entries_iff t hd x k).1 hm)
  have aux : ∀ f : Forest α, (∀ x k, (x, k) ∈ f.entries → P x) → f.All P := by
    intro f
    induction f with
    | nil => intro _; trivial
    | cons ch v sub rest ihs ihr =>
      intro hf
      simp only [Forest.entries, List.mem_append, List.mem_map] at hf
      refine ⟨?_, ihs ?_, ihr ?_⟩
      · rintro x rfl; exact hf x [ch] (Or.inl (Or.inr (by simp)))
      · intro x k hx; exact hf x (ch :: k) (Or.inl (Or.inl ⟨(x, k), hx, rfl⟩))
      · intro x k hx; exact hf x k (Or.inr hx)
  refine ⟨?_, aux _ ?_⟩
  · rintro x hx; exact hent x [] (by simp [Tree.entries, hx])
  · intro x k hx; exact hent x k (by simp [Tree.entries, hx])

theorem DictOk.entriesOk {A : List Byte} {l : List (List Byte × Entry)} (h : DictOk A l) (k : List Byte) :
    EntriesOk (filedUnder l k) := by
  constructor
  · have h1 : (filedUnder l k).length ≤ l.length := by
      simp only [filedUnder, foldl_insEntry_length, List.length_map, List.length_nil, Nat.add_zero]
      exact List.length_filter_le _ _
    have := h.count; omega
  · intro e he
    rw [mem_filedUnder] at he
    exact ⟨h.ids _ he, h.classes _ he, h.posts _ he⟩

theorem DictOk.all {A : List Byte} {l : List (List Byte × Entry)} (h : DictOk A l) :
    (fileAll l).All EntriesOk := by
  apply Tree.all_of_find (fileAll_desc l)
  intro k x hx
  rw [fileAll_find] at hx
  split at hx
  · simp at hx; subst hx; exact h.entriesOk k
  · simp at hx

theorem DictOk.inv {A : List Byte} {l : List (List Byte × Entry)} (h : DictOk A l) :
    (fileAll l).kids.AllCh (· ∈ A) ∧ (fileAll l).kids.depth ≤ 48 := by
  have := runHist_inv (entryHist l) (· ∈ A) 48 (fun _ => True)
    (by
      intro p hp b hb
      obtain ⟨q, hq, rfl⟩ := List.mem_map.1 hp
      exact h.stems q hq b hb)
    (by
      intro p hp
      obtain ⟨q, hq, rfl⟩ := List.mem_map.1 hp
      exact h.short q hq)
    (by intros; trivial)
  rw [fileAll_eq]
  exact ⟨this.1, this.2.1⟩

theorem DictOk.good {A : List Byte} {l : List (List Byte × Entry)} (h : DictOk A l) :
    (fileAll l).Good .u8 entriesLen := by
  refine Tree.good_of (A := A) (fileAll_desc l) h.inv.1 ?_ (fun x hx => (h.letters x hx).2) ?_
  · exact h.alpha
  · have := Tree.ser_length .u8 entriesSer entriesLen (fileAll l) EntriesOk entriesSer_length h.all
    have h2 := h.size
    simp only [stemImage] at h2
    omega

theorem DictOk.nonzero {A : List Byte} {l : List (List Byte × Entry)} (h : DictOk A l) :
    (fileAll l).kids.AllCh (· ≠ 0) := by
  have aux : ∀ f : Forest (List Entry), f.AllCh (· ∈ A) → f.AllCh (· ≠ 0) := by
    intro f
    induction f with
    | nil => intro _; trivial
    | cons ch v sub rest ihs ihr =>
      intro hf
      refine ⟨?_, ihs hf.2.1, ihr hf.2.2⟩
      have := (h.letters ch hf.1).1
      show ch ≠ 0
      omega
  exact aux _ h.inv.1

/-! ### Word lookup in a compiled dictionary -/

/-- The stems filed in the dictionary that are prefixes of the word, longest first, with the
entries filed under them and the rest of the word. -/
def dictHits (l : List (List Byte × Entry)) (w : List Byte) : List (List Entry × List Byte) :=
  prefixHits (fun k => if k ∈ l.map Prod.fst then some (filedUnder l k) else none) w

theorem scanDict {A : List Byte} {l : List (List Byte × Entry)} (h : DictOk A l)
    (output : Nat → Nat → Frag → List Byte → σ → Option (Option ρ × σ))
    (w junk tl : List Byte) (hw : w.length < maxLevels) (s : σ) :
    scanTree .u8 (lookupList output) (stemImage (fileAll l) ++ tl) ⟨w ++ junk, w.length⟩ s
      = runHits (fun es k => lookupEntries output ⟨k ++ junk, k.length⟩ es) (dictHits l w) s := by
  have hm : maxLevels = 64 := rfl
  have := scanNode_ser .u8 entriesSer entriesLen EntriesOk (lookupList output)
    (fun es f s => lookupEntries output f es s)
    (fun x hx tl f s => lookupList_ser output f x hx tl s) entriesSer_length junk w maxLevels (fileAll l) tl s
    (by unfold sizeMod; omega) hw h.all h.good h.nonzero
  rw [hits_eq_prefixHits] at this
  simp only [fileAll_find] at this
  exact this

/-! ### Selecting an entry by position -/

theorem Entry.ser_pos (e : Entry) : 0 < e.ser.length := by
  simp only [Entry.ser, List.length_append, List.length_cons, List.length_nil]; omega

theorem selectLoop_none (output : Nat → Nat → List Byte → List Byte → σ → Option (Option ρ × σ))
    (r : Nat) (tr tl : List Byte) (l : List Entry) (h : ∀ e ∈ l, e.Ok) (s : σ)
    (hr : r ≤ tl.length ∨ ((l.map Entry.ser).flatten ++ tl).length < r) :
    selectLoop output r tr l.length ((l.map Entry.ser).flatten ++ tl) s = some (none, s) := by
  induction l with
  | nil => rfl
  | cons e l ih =>
    simp only [List.length_cons, List.map_cons, List.flatten_cons, List.append_assoc, selectLoop,
      readEntry_ser e (h e (by simp)), bind, Option.bind]
    have hp := Entry.ser_pos e
    simp only [List.map_cons, List.flatten_cons, List.append_assoc, List.length_append] at hr
    rw [if_neg]
    · refine ih (fun x hx => h x (by simp [hx])) ?_
      simp only [List.length_append]; omega
    · simp only [List.length_append]; omega

theorem selectLoop_at (output : Nat → Nat → List Byte → List Byte → σ → Option (Option ρ × σ))
    (r : Nat) (tr tl : List Byte) (l1 l2 : List Entry) (e : Entry) (h : ∀ x ∈ l1 ++ e :: l2, x.Ok) (s : σ)
    (hr : r = (((e :: l2).map Entry.ser).flatten ++ tl).length) :
    selectLoop output r tr (l1 ++ e :: l2).length (((l1 ++ e :: l2).map Entry.ser).flatten ++ tl) s
      = output e.nlexid e.oclass tr e.stpost s := by
  induction l1 with
  | nil =>
    simp only [List.nil_append, List.length_cons, selectLoop]
    rw [List.map_cons, List.flatten_cons, List.append_assoc, readEntry_ser e (h e (by simp))]
    simp only [bind, Option.bind, ite_getD]
    rw [if_pos]
    rw [hr, List.map_cons, List.flatten_cons, List.append_assoc]
  | cons x l1 ih =>
    simp only [List.cons_append, List.length_cons, List.map_cons, List.flatten_cons, List.append_assoc, selectLoop,
      readEntry_ser x (h x (by simp)), bind, Option.bind]
    have hp := Entry.ser_pos x
    rw [if_neg]
    · exact ih (fun y hy => h y (by simp only [List.cons_append, List.mem_cons]; exact Or.inr hy))
    · simp only [hr, List.map_append, List.flatten_append, List.length_append, List.map_cons, List.flatten_cons]; omega

theorem sum_len_eq (l : List Entry) (h : ∀ e ∈ l, e.Ok) : ((l.map Entry.ser).flatten).length = (l.map Entry.len).sum := by
  induction l with
  | nil => rfl
  | cons e l ih =>
    simp only [List.map_cons, List.flatten_cons, List.length_append, List.sum_cons,
      Entry.ser_length e (h e (by simp)), ih (fun x hx => h x (by simp [hx]))]

/-- Following a recorded position leads to the stem and to the entry. -/
theorem trackDict {A : List Byte} {l : List (List Byte × Entry)} (h : DictOk A l)
    (output : Nat → Nat → List Byte → List Byte → σ → Option (Option ρ × σ))
    (k : List Byte) (es1 es2 : List Entry) (e : Entry) (o : Nat)
    (hp : (k, es1 ++ e :: es2, o) ∈ (fileAll l).placed .u8 entriesLen) (s : σ) (tl : List Byte) :
    let img := stemImage (fileAll l) ++ tl
    let pos := o + serialLen (es1 ++ e :: es2).length + (es1.map Entry.len).sum
    let r := img.length - pos
    pos < (stemImage (fileAll l)).length ∧
    getTrack .u8 (selectView output r) (some r) 48 img [] s = output e.nlexid e.oclass k e.stpost s := by
  intro img pos r
  have hent : (es1 ++ e :: es2, k) ∈ (fileAll l).entries := by
    rw [← Tree.placed_entries .u8 entriesLen]
    exact List.mem_map.2 ⟨_, hp, rfl⟩
  have hfind : (fileAll l).find k = some (es1 ++ e :: es2) := (Tree.mem_entries_iff _ (fileAll_desc l) _ _).1 hent
  rw [fileAll_find] at hfind
  have hkl : k ∈ l.map Prod.fst ∧ filedUnder l k = es1 ++ e :: es2 := by
    split at hfind
    · exact ⟨by assumption, by simpa using hfind⟩
    · simp at hfind
  have hok : EntriesOk (es1 ++ e :: es2) := by rw [← hkl.2]; exact h.entriesOk k
  have hk48 : k.length ≤ 48 := by
    obtain ⟨p, hp1, hp2⟩ := List.mem_map.1 hkl.1
    rw [← hp2]; exact h.short p hp1
  have hlen := entriesSer_length _ hok
  obtain ⟨tl', hdrop⟩ := Tree.placed_drop .u8 entriesSer entriesLen EntriesOk entriesSer_length _ h.all _ _ _ hp tl
  have hdl := congrArg List.length hdrop
  obtain ⟨tl0, hdrop0⟩ := Tree.placed_drop .u8 entriesSer entriesLen EntriesOk entriesSer_length _ h.all _ _ _ hp []
  have hdl0 := congrArg List.length hdrop0
  simp only [List.append_nil] at hdl0
  have hs1 := sum_len_eq es1 (fun x hx => hok.2 x (by simp [hx]))
  have hs2 := sum_len_eq (e :: es2) (fun x hx => hok.2 x (by
    rcases List.mem_cons.1 hx with rfl | hx <;> simp [*]))
  have hel := Entry.ser_length e (hok.2 e (by simp))
  have hep := Entry.ser_pos e
  have hexp : entriesLen (es1 ++ e :: es2) = serialLen (es1 ++ e :: es2).length
      + ((es1.map Entry.len).sum + (e.len + (es2.map Entry.len).sum)) := by
    simp [entriesLen]
  have hsp : 1 ≤ serialLen (es1 ++ e :: es2).length := by
    unfold serialLen; split <;> omega
  have himg : img = (fileAll l).ser .u8 entriesSer entriesLen ++ tl := rfl
  have himg0 : stemImage (fileAll l) = (fileAll l).ser .u8 entriesSer entriesLen := rfl
  rw [List.length_drop, List.length_append, List.length_append, hlen] at hdl
  rw [List.length_drop, List.length_append, hlen] at hdl0
  have hposlt : pos < ((fileAll l).ser .u8 entriesSer entriesLen).length := by omega
  refine ⟨hposlt, ?_⟩
  have hil : img.length = ((fileAll l).ser .u8 entriesSer entriesLen).length + tl.length := by
    rw [himg, List.length_append]
  rw [himg]
  rw [getTrack_pos .u8 entriesSer entriesLen EntriesOk (selectView output r) entriesSer_length r ?_
    (fileAll l) pos k (es1 ++ e :: es2) o 48 [] tl s h.all h.good hp (by omega) (by omega)
    (by rw [← himg]; omega) hk48]
  · rw [hdrop]
    simp only [selectView, entriesSer, List.append_assoc, getserial_putserial hok.1, bind, Option.bind, List.nil_append]
    rw [selectLoop_at output r k tl' es1 es2 e hok.2 s]
    rw [List.length_append, hs2, List.map_cons, List.sum_cons]
    omega
  · intro y hy tl1 tr s' hn
    simp only [selectView, entriesSer, List.append_assoc, getserial_putserial hy.1, bind, Option.bind]
    apply selectLoop_none _ _ _ _ _ hy.2
    simp only [entriesSer, List.append_assoc, List.length_append] at hn ⊢
    have := List.length_pos_iff.2 (putserial_ne_nil y.length)
    omega

end Libmorph
