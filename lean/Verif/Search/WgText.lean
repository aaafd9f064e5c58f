import Verif.Search.WgModel
import Verif.Search.Decode

/-!
The text of an extension is the text of the hypothesis followed by the words of the new segment.
-/
namespace Thot.Search
open Thot.StrProc (Str)
open Thot.Meta (MD Segm Meet words cutBefore)

theorem areAligned_extend {n : Nat} {d : HypData} (hw : WfHyp n d) {l r : Nat} {trg : List Str}
    (hw' : WfHyp n (extend d l r trg)) {j i : Nat} (hi : i < d.ntarget.length) :
    areAligned (extend d l r trg) j i = areAligned d j i := by
  rw [Bool.eq_iff_iff, areAligned_iff hw', areAligned_iff hw]
  have hlen := hw.len
  constructor
  · rintro ⟨k, s, h1, h2, h3, h4, h5⟩
    have hk : k < (d.srcSegm ++ [(l, r)]).length := (List.getElem?_eq_some_iff.1 h1).1
    simp only [List.length_append, List.length_singleton] at hk
    rcases Nat.lt_or_ge k d.srcSegm.length with hlt | hge
    · refine ⟨k, s, ?_, h2, h3, ?_, ?_⟩
      · simpa [extend, List.getElem?_append_left hlt] using h1
      · have := cutBefore_append d.cuts ((d.ntarget ++ trg).length - 1) k (by omega)
        simp only [extend] at h4
        rw [this] at h4; exact h4
      · simp only [extend, List.getD_eq_getElem?_getD] at h5
        rw [List.getElem?_append_left (by omega)] at h5
        simpa [List.getD_eq_getElem?_getD] using h5
    · have hk' : k = d.cuts.length := by omega
      subst hk'
      have h6 : cutBefore (extend d l r trg).cuts d.cuts.length = d.ntarget.length - 1 := by
        show cutBefore (d.cuts ++ [_]) _ = _
        rw [cutBefore_append _ _ _ (Nat.le_refl _), cutBefore_length hw]
      rw [h6] at h4
      omega
  · rintro ⟨k, s, h1, h2, h3, h4, h5⟩
    have hlt := (List.getElem?_eq_some_iff.1 h1).1
    refine ⟨k, s, ?_, h2, h3, ?_, ?_⟩
    · simpa [extend, List.getElem?_append_left hlt] using h1
    · have := cutBefore_append d.cuts ((d.ntarget ++ trg).length - 1) k (by omega)
      simp only [extend]
      rw [this]; exact h4
    · simp only [extend, List.getD_eq_getElem?_getD]
      rw [List.getElem?_append_left (by omega)]
      simpa [List.getD_eq_getElem?_getD] using h5

theorem replaceUnk_extend {n : Nat} {d : HypData} (hw : WfHyp n d) {l r : Nat} {trg : List Str}
    (hw' : WfHyp n (extend d l r trg)) (src : List Str) {i : Nat} (hi : i + 1 < d.ntarget.length) (w : Str) :
    replaceUnk src (extend d l r trg) i w = replaceUnk src d i w := by
  unfold replaceUnk
  simp only [areAligned_extend hw hw' hi]

theorem mapIdx_append_congr {α : Type} (f g : Nat → α → α) (a b : List α) (h : ∀ i w, i < a.length → f i w = g i w) :
    (a ++ b).mapIdx f = a.mapIdx g ++ b.mapIdx (fun i w => f (a.length + i) w) := by
  rw [List.mapIdx_append]
  congr 1
  · apply List.ext_getElem? 
    intro i
    simp only [List.getElem?_mapIdx]
    cases hi : a[i]? with
    | none => rfl
    | some w => simp [h i w (List.getElem?_eq_some_iff.1 hi).1]
  · apply List.ext_getElem?
    intro i
    simp only [List.getElem?_mapIdx, Nat.add_comm]

theorem tail_extend {n : Nat} {d : HypData} (hw : WfHyp n d) (l r : Nat) (trg : List Str) :
    (extend d l r trg).ntarget.tail = d.ntarget.tail ++ trg := by
  show (d.ntarget ++ trg).tail = _
  rw [ntarget_cons hw]; rfl

/-- Every hypothesis has a text, and the text of an extension continues it. -/
theorem text_step {m : Mode} {M : Model} {I : Input} (hI : m = .trans → FromRaw I) {h h' : Hyp} {hs : List Hyp}
    (hr : Reach m M I h) (he : expandMode m M I h = some hs) (hm : h' ∈ hs) :
    ∃ t w, plainText m I h.data = some t ∧ plainText m I h'.data = some (t ++ w) ∧
      t.length + 1 = h.data.ntarget.length ∧ (t ++ w).length + 1 = h'.data.ntarget.length := by
  have hw := C81_wf hr
  have hw' := C81_wf (.step hr he hm)
  obtain ⟨l, r, trg, hd, _⟩ := step_spec he hm
  have htl := tail_extend hw l r trg
  have hlen : h.data.ntarget.tail.length + 1 = h.data.ntarget.length := by
    rw [ntarget_cons hw]; simp
  have hlen' : (h.data.ntarget.tail ++ trg).length + 1 = h'.data.ntarget.length := by
    rw [hd]; simp only [extend, List.length_append]; omega
  have key : ∀ (f f' : Nat → Str → Str), (∀ i w, i < h.data.ntarget.tail.length → f' i w = f i w) →
      plainText m I h.data = some (h.data.ntarget.tail.mapIdx f) → 
      plainText m I h'.data = some (h'.data.ntarget.tail.mapIdx f') →
      ∃ t w, plainText m I h.data = some t ∧ plainText m I h'.data = some (t ++ w) ∧
      t.length + 1 = h.data.ntarget.length ∧ (t ++ w).length + 1 = h'.data.ntarget.length := by
    intro f f' hff e1 e2
    refine ⟨_, trg.mapIdx (fun i w => f' (h.data.ntarget.tail.length + i) w), e1, ?_, by rw [List.length_mapIdx]; exact hlen, ?_⟩
    · rw [e2, hd, htl, mapIdx_append_congr _ _ _ _ hff]
    · rw [← hlen']; simp
  have hru : ∀ i w, i < h.data.ntarget.tail.length → replaceUnk I.src h'.data i w = replaceUnk I.src h.data i w := by
    intro i w hi
    rw [hd]
    exact replaceUnk_extend hw (by rw [← hd]; exact hw') _ (by omega) _
  cases m with
  | trans =>
    exact key _ _ hru (textTs_eq (hI rfl) hw (reach_kept (hI rfl) hr))
      (textTs_eq (hI rfl) hw' (reach_kept (hI rfl) (.step hr he hm)))
  | pref =>
    refine key _ _ ?_ (rfl : _ = some (textTps I h.data)) (rfl : _ = some (textTps I h'.data))
    intro i w hi
    split
    · split
      · rfl
      · exact hru i w hi
    · rfl
  | ref => exact key _ _ (fun _ _ _ => rfl) (rfl : _ = some (textTrs I h.data)) (rfl : _ = some (textTrs I h'.data))
  | ver => exact key _ _ (fun _ _ _ => rfl) (rfl : _ = some (textTrs I h.data)) (rfl : _ = some (textTrs I h'.data))

theorem text_null (m : Mode) (I : Input) (hI : m = .trans → FromRaw I) : plainText m I nullData = some [] := by
  cases m with
  | trans => 
    rw [plainText, textTs_eq (n := I.src.length) (hI rfl)]
    · rfl
    · exact C81_wf (m := .trans) (M := ⟨0, 0, 0, .best 0, fun _ => [], fun _ _ => 0, fun _ _ => 0, fun _ => 0, 0⟩) .null
    · intro k s hs; simp [nullData] at hs
  | pref => rfl
  | ref => rfl
  | ver => rfl

end Thot.Search
