import Verif.WgHandler.Model
import Verif.WordGraph.FileLemmas
/-! C171: the file with the word graph of each sentence. -/
namespace Thot.WgHandler
open Thot.AMap
open Thot.SentHandler (Word Line)
open Thot.WordGraph (fields_app)
open Thot.AligFile (line_sp)

/-! ### Specification -/

/-- A file with these lines. -/
def text (ls : List Str) : Str := ls.flatMap (· ++ ['\n'])

/-- The line says that `p` is the path of the sentence `s`: the words, a separator and the path. -/
def Says (l : Str) (s : List Str) (p : Str) : Prop := s ≠ [] ∧ ∃ sep, Awk.fields ' ' l = s ++ [sep, p]

/-- What the lines say: the path of the last line with the sentence. -/
def LastSays (ls : List Str) (s : List Str) (p : Str) : Prop :=
  ∃ pre l post, ls = pre ++ l :: post ∧ Says l s p ∧ ∀ l' ∈ post, ∀ p', ¬ Says l' s p'

/-! ### Proofs -/

theorem loadLine_eq (m : M) (l : Str) (s : List Str) :
    (∀ p, Says l s p → path (loadLine m l) s = some p) ∧ ((∀ p, ¬ Says l s p) → path (loadLine m l) s = path m s) := by
  have hnf : Awk.getNF ' ' l = (Awk.fields ' ' l).length := Awk.C41_NF ' ' l
  have hd := (Awk.C41_dollar ' ' l).2
  unfold loadLine path
  rw [hnf]
  by_cases h3 : (Awk.fields ' ' l).length ≥ 3
  · rw [if_pos h3]
    generalize hf : Awk.fields ' ' l = fs at *
    obtain ⟨s', x, q, hs'⟩ : ∃ s' x q, fs = s' ++ [x, q] := by
      have h1 := List.take_append_drop (fs.length - 2) fs
      refine ⟨fs.take (fs.length - 2), ?_⟩
      have h2 : (fs.drop (fs.length - 2)).length = 2 := by simp; omega
      match hdr : fs.drop (fs.length - 2), h2 with
      | [x, q], _ => exact ⟨x, q, by rw [← hdr]; exact h1.symm⟩
    subst hs'
    have e1 : (List.range' 1 ((s' ++ [x, q]).length - 1 - 1)).map (Awk.dollar ' ' l) = s' := by
      have : (s' ++ [x, q]).length - 1 - 1 = s'.length := by simp
      rw [this]
      apply List.ext_getElem
      · simp
      · intro i h1 h2
        have hi : 1 + 1 * i = i + 1 := by omega
        simp only [List.getElem_map, List.getElem_range', hi, hd]
        rw [List.getElem?_append_left h2]
        simp [List.getElem?_eq_getElem h2]
    have e2 : Awk.dollar ' ' l (s' ++ [x, q]).length = q := by
      have : (s' ++ [x, q]).length = (s'.length + 1) + 1 := by simp
      rw [this, hd, List.getElem?_append_right (by omega)]
      simp
    have hne : s' ≠ [] := by intro h; rw [h] at h3; simp at h3
    rw [e1, e2, lk_put]
    refine ⟨?_, ?_⟩
    · rintro p ⟨_, sep, h⟩
      have h' := List.append_inj_left' (t₁ := [x, q]) (t₂ := [sep, p]) (hf.symm.trans h) rfl
      have h'' := List.append_inj_right' (t₁ := [x, q]) (t₂ := [sep, p]) (hf.symm.trans h) rfl
      cases h''
      rw [if_pos h'.symm]
    · intro h
      rw [if_neg]
      intro hs
      exact h q ⟨by rw [hs]; exact hne, x, by rw [hs]; exact hf⟩
  · rw [if_neg h3]
    refine ⟨?_, fun _ => rfl⟩
    rintro p ⟨hs, sep, h⟩
    exfalso
    apply h3
    rw [h]
    cases s with
    | nil => exact absurd rfl hs
    | cons => simp

theorem loadLoop_lines : ∀ (ls : List Str) (m : M) (n : Nat), (∀ l ∈ ls, Line l) → (text ls).length < n →
    loadLoop n (text ls) m = ls.foldl loadLine m := by
  intro ls
  induction ls with
  | nil =>
    intro m n _ hn
    cases n with
    | zero => simp at hn
    | succ n => rfl
  | cons l ls ih =>
    intro m n h hn
    cases n with
    | zero => simp at hn
    | succ n =>
      have e : text (l :: ls) = l ++ '\n' :: text ls := by simp [text]
      rw [e] at hn ⊢
      rw [loadLoop, Awk.getln_nl _ _ (h l List.mem_cons_self)]
      simp only [List.foldl_cons]
      exact ih _ n (fun x hx => h x (List.mem_cons_of_mem _ hx)) (by simp only [List.length_append, List.length_cons] at hn; omega)

theorem foldl_path : ∀ (ls : List Str) (m : M) (s : List Str),
    (∀ p, LastSays ls s p → path (ls.foldl loadLine m) s = some p) ∧
    ((∀ l ∈ ls, ∀ p, ¬ Says l s p) → path (ls.foldl loadLine m) s = path m s) := by
  intro ls
  induction ls with
  | nil =>
    intro m s
    exact ⟨by rintro p ⟨pre, l, post, h, _⟩; simp at h, fun _ => rfl⟩
  | cons l ls ih =>
    intro m s
    rw [List.foldl_cons]
    refine ⟨?_, ?_⟩
    · rintro p ⟨pre, l', post, h, h1, h2⟩
      cases pre with
      | nil =>
        simp only [List.nil_append, List.cons.injEq] at h
        obtain ⟨rfl, rfl⟩ := h
        rw [(ih _ s).2 h2]
        exact (loadLine_eq m l s).1 p h1
      | cons x pre =>
        simp only [List.cons_append, List.cons.injEq] at h
        exact (ih _ s).1 p ⟨pre, l', post, h.2, h1, h2⟩
    · intro h
      rw [(ih _ s).2 fun l' hl' => h l' (List.mem_cons_of_mem _ hl')]
      exact (loadLine_eq m l s).2 (h l List.mem_cons_self)

/-- **C171 (loading).** After a file is loaded, whatever was stored before, the path of a sentence is the one given by the last line of the
file with that sentence, and a sentence that no line has is not found. -/
theorem C171_load (old : M) (ls : List Str) (hl : ∀ l ∈ ls, Line l) (s : List Str) :
    (∀ p, LastSays ls s p → path (load old (text ls)) s = some p) ∧
    ((∀ l ∈ ls, ∀ p, ¬ Says l s p) → path (load old (text ls)) s = none) := by
  unfold load
  rw [loadLoop_lines ls [] _ hl (by omega)]
  exact ⟨(foldl_path ls [] s).1, fun h => by rw [(foldl_path ls [] s).2 h]; rfl⟩

/-- **C171 (round trip, partial).** A map of sentences with at least one word, whose words and paths can be written, is the same after it
is printed and loaded. Missing: the entry of the empty sentence. -/
theorem C171_round_trip_partial (m : M) (hd : Distinct m) (h : ∀ e ∈ m, e.1 ≠ [] ∧ (∀ w ∈ e.1, Word w) ∧ Word e.2) (old : M) (s : List Str) :
    path (load old (print m)) s = path m s := by
  have hb : Word ['|', '|', '|'] := ⟨by decide, by decide⟩
  let line (e : List Str × Str) : Str := e.1.flatMap (· ++ [' ']) ++ ['|', '|', '|', ' '] ++ e.2
  have hp : print m = text (m.map line) := by
    unfold print text
    rw [List.flatMap_map]
  have hline : ∀ e ∈ m, line e = (e.1 ++ [['|', '|', '|']]).flatMap (· ++ [' ']) ++ e.2 := by
    intro e _; simp [line, List.flatMap_append]
  have hword : ∀ e ∈ m, ∀ w ∈ e.1 ++ [['|', '|', '|']], Word w := by
    intro e he w hw
    rcases List.mem_append.1 hw with hw | hw
    · exact (h e he).2.1 w hw
    · rw [List.mem_singleton] at hw; rw [hw]; exact hb
  have hfl : ∀ e ∈ m, Awk.fields ' ' (line e) = e.1 ++ [['|', '|', '|'], e.2] := by
    intro e he
    rw [hline e he, fields_app (hword e he)]
    have : Awk.fields ' ' e.2 = [e.2] := by
      have := SentHandler.fields_join (ws := [e.2]) (by intro w hw; rw [List.mem_singleton] at hw; rw [hw]; exact (h e he).2.2)
      exact this
    rw [this]; simp
  have hsays : ∀ e ∈ m, ∀ s p, Says (line e) s p ↔ e = (s, p) := by
    intro e he s p
    constructor
    · rintro ⟨_, sep, h1⟩
      rw [hfl e he] at h1
      have h' := List.append_inj_left' (t₁ := [['|', '|', '|'], e.2]) (t₂ := [sep, p]) h1 rfl
      have h'' := List.append_inj_right' (t₁ := [['|', '|', '|'], e.2]) (t₂ := [sep, p]) h1 rfl
      simp only [List.cons.injEq] at h''
      rw [Prod.ext_iff]; exact ⟨h', h''.2.1⟩
    · rintro rfl
      exact ⟨(h _ he).1, _, hfl _ he⟩
  have hls : ∀ l ∈ m.map line, Line l := by
    intro l hl
    obtain ⟨e, he, rfl⟩ := List.mem_map.1 hl
    rw [hline e he]
    intro c hc
    rcases List.mem_append.1 hc with hc | hc
    · exact line_sp (hword e he) c hc
    · exact ((h e he).2.2.2 c hc).2
  rw [hp]
  obtain ⟨h1, h2⟩ := C171_load old (m.map line) hls s
  cases hs : path m s with
  | none =>
    apply h2
    intro l hl p hsy
    obtain ⟨e, he, rfl⟩ := List.mem_map.1 hl
    have := (hsays e he s p).1 hsy
    subst this
    have := (lk_some_iff hd).2 he
    unfold path at hs
    rw [hs] at this; cases this
  | some p =>
    apply h1
    have hm : (s, p) ∈ m := (lk_some_iff hd).1 hs
    obtain ⟨pre, post, hpp⟩ := List.append_of_mem hm
    refine ⟨pre.map line, line (s, p), post.map line, by rw [hpp]; simp, (hsays _ hm s p).2 rfl, ?_⟩
    intro l hl p' hsy
    obtain ⟨e, he, rfl⟩ := List.mem_map.1 hl
    have := (hsays e (by rw [hpp]; simp [he]) s p').1 hsy
    subst this
    have h3 : (pre ++ (s, p) :: post).map Prod.fst |>.Nodup := by rw [← hpp]; exact hd
    rw [List.map_append, List.map_cons, List.nodup_append] at h3
    have := (List.nodup_cons.1 h3.2.1).1
    exact this (List.mem_map.2 ⟨_, he, rfl⟩)

/-- **C171, full statement:** also with the empty sentence. -/
def C171_full : Prop :=
  ∀ m : M, Distinct m → (∀ e ∈ m, (∀ w ∈ e.1, Word w) ∧ Word e.2) → ∀ s, path (load [] (print m)) s = path m s

theorem C171_counterexample : ¬ C171_full := by
  intro h
  have := h [([], ['p'])] (by unfold Distinct; simp) (by
    intro e he; rw [List.mem_singleton] at he; subst he
    exact ⟨by simp, by decide, by decide⟩) []
  have e : path (load [] (print [([], ['p'])])) [] = none := by decide +kernel
  rw [e] at this; revert this; decide

/-- Non-vacuity. -/
example : load [] (print [([['a'], ['b']], ['p']), ([['c']], ['q'])]) = [([['a'], ['b']], ['p']), ([['c']], ['q'])] := by decide +kernel
example : path (load [] "a b ||| p\na b ||| q\n||| r\n".toList) [['a'], ['b']] = some ['q'] := by decide +kernel

end Thot.WgHandler
