import Verif.NbFile.Model
/-!
Properties C313-C317: files with n-best lists and `thot_ll_weight_upd_nblist`.
-/
namespace Thot.NbFile

/-! ### C313 -/

/-- The elements at the positions marked by `va`. -/
def select {A : Type} (va : List Bool) (xs : List A) : List A := ((va.zip xs).filter (·.1)).map (·.2)

/-- No word of a list is the separator. -/
def Clean (l : List String) : Prop := "|||" ∉ l

instance (l : List String) : Decidable (Clean l) := inferInstanceAs (Decidable ("|||" ∉ l))

theorem compsLoop_all : ∀ (cs rest : List String) (k : Nat), Clean cs →
    compsLoop [] k (cs ++ bars :: rest) = cs := by
  intro cs
  induction cs with
  | nil => intro rest k _; simp [compsLoop]
  | cons c r ih =>
    intro rest k h
    have h1 : c ≠ bars := fun e => h (by rw [e]; exact List.mem_cons_self)
    have h2 : Clean r := fun hm => h (List.mem_cons_of_mem _ hm)
    simp [compsLoop, h1, ih rest (k + 1) h2]

theorem compsLoop_sel : ∀ (cs rest : List String) (pre va : List Bool), Clean cs → pre ++ va ≠ [] →
    compsLoop (pre ++ va) pre.length (cs ++ bars :: rest) = select va cs := by
  intro cs
  induction cs with
  | nil => intro rest pre va _ _; cases va <;> simp [compsLoop, select]
  | cons c r ih =>
    intro rest pre va h hne
    have h1 : c ≠ bars := fun e => h (by rw [e]; exact List.mem_cons_self)
    have h2 : Clean r := fun hm => h (List.mem_cons_of_mem _ hm)
    have hne' : (pre ++ va).isEmpty = false := by
      cases hh : pre ++ va with
      | nil => exact absurd hh hne
      | cons _ _ => rfl
    cases va with
    | nil =>
      have hd : (pre ++ ([] : List Bool)).getD pre.length false = false := by simp
      simp only [List.cons_append, compsLoop, h1, if_false, hne', hd, Bool.false_eq_true]
      have := ih rest (pre ++ [false]) [] h2 (by simp)
      simp only [select, List.zip_nil_left, List.filter_nil, List.map_nil] at this ⊢
      -- past the end nothing is included
      have aux : ∀ (l : List String) (k : Nat), pre.length ≤ k → compsLoop (pre ++ []) k l = [] := by
        intro l
        induction l with
        | nil => intro k _; rfl
        | cons x xs ihx =>
          intro k hk
          have hd' : (pre ++ ([] : List Bool)).getD k false = false := by
            simp [List.getD, List.getElem?_eq_none hk]
          simp only [compsLoop, hne', hd', Bool.false_eq_true, if_false]
          split
          · rfl
          · exact ihx (k + 1) (by omega)
      exact aux _ _ (by omega)
    | cons b vs =>
      have hd : (pre ++ b :: vs).getD pre.length false = b := by simp [List.getD]
      have e : pre ++ b :: vs = (pre ++ [b]) ++ vs := by simp
      have hl : pre.length + 1 = (pre ++ [b]).length := by simp
      have := ih rest (pre ++ [b]) vs h2 (by simp)
      rw [← e, ← hl] at this
      simp only [List.cons_append, compsLoop, h1, if_false, hne', hd, Bool.false_eq_true, this]
      cases b <;> simp [select]

theorem takeWhile_clean : ∀ (l rest : List String), Clean l →
    (l ++ bars :: rest).takeWhile (fun f => decide (f ≠ bars)) = l := by
  intro l
  induction l with
  | nil => intro rest _; simp
  | cons x r ih =>
    intro rest h
    have h1 : x ≠ bars := fun e => h (by rw [e]; exact List.mem_cons_self)
    have h2 : Clean r := fun hm => h (List.mem_cons_of_mem _ hm)
    rw [List.cons_append, List.takeWhile_cons, if_pos (by simpa using h1), ih rest h2]

theorem transOf_last (a ws : List String) (h : Clean ws) : transOf (a ++ bars :: ws) = ws := by
  unfold transOf
  rw [if_pos (by simp)]
  have e : (a ++ bars :: ws).reverse = ws.reverse ++ bars :: a.reverse := by simp
  rw [e, takeWhile_clean _ _ (by simpa [Clean] using h)]
  simp

/-- An n-best list as the search gives it: score, words, score components and arcs of every element. -/
structure Hyp where
  score : String
  words : List String
  comps : List String
  arcs : List (Nat × Nat)

/-- The file written for an n-best list. -/
def fileOf (weights : List (String × String)) (hs : List Hyp) : List Line :=
  printNbList weights (hs.map fun h => (h.score, h.words)) (hs.map (·.comps)) (hs.map (·.arcs))

/-- **C313 (as a user expects it).** The tool that updates the weights reads from the file of an n-best list all of
its translations, in order, with their score components, whatever the names and weights in the header (there are none
if the word graph had none). -/
def C313_full : Prop :=
  ∀ (weights : List (String × String)) (hs : List Hyp), (∀ h ∈ hs, Clean h.words ∧ Clean h.comps) →
    readFile [] (fileOf weights hs) = hs.map fun h => (h.words, h.comps)

/-- Without weights there is no header, and the best translation is taken for it. -/
theorem C313_counterexample : ¬ C313_full := by
  intro h
  have := h [] [⟨"-1", ["a"], ["-1"], [(0, 1)]⟩] (by
    intro x hx
    rw [List.mem_singleton.1 hx]
    exact ⟨by decide +kernel, by decide +kernel⟩)
  revert this
  decide +kernel

theorem entryLines_eq : ∀ (hs pre : List Hyp),
    entryLines ((pre ++ hs).map (·.comps)) ((pre ++ hs).map (·.arcs)) pre.length
      (hs.map fun h => (h.score, h.words)) =
    hs.map fun h => entryLine h.score h.words (some h.comps) (some h.arcs) := by
  intro hs
  induction hs with
  | nil => intro pre; rfl
  | cons x r ih =>
    intro pre
    have e : pre ++ x :: r = (pre ++ [x]) ++ r := by simp
    have hl : pre.length + 1 = (pre ++ [x]).length := by simp
    simp only [List.map_cons, entryLines]
    have := ih (pre ++ [x])
    rw [← e, ← hl] at this
    rw [this]
    congr 1
    simp

theorem readEntry_entryLine (va : List Bool) (h : Hyp) (hc : Clean h.comps) (hw : Clean h.words) :
    transOf (entryLine h.score h.words (some h.comps) (some h.arcs)) = h.words ∧
    compsLoop va 0 ((entryLine h.score h.words (some h.comps) (some h.arcs)).drop 2) =
      if va = [] then h.comps else select va h.comps := by
  constructor
  · have e : entryLine h.score h.words (some h.comps) (some h.arcs) =
        (h.score :: bars :: (h.comps ++ [bars] ++ h.arcs.map arcText)) ++ bars :: h.words := by
      simp [entryLine]
    rw [e]; exact transOf_last _ _ hw
  · have e : (entryLine h.score h.words (some h.comps) (some h.arcs)).drop 2 =
        h.comps ++ bars :: (h.arcs.map arcText ++ [bars] ++ h.words) := by
      simp [entryLine]
    rw [e]
    split
    · rename_i hv; subst hv; exact compsLoop_all _ _ _ hc
    · rename_i hv
      exact compsLoop_sel h.comps _ [] va hc (by simpa using hv)

/-- **C313 (partial).** If there are weights, the tool reads all the translations, in order, with the score components
at the positions marked by `-va` (all of them without `-va`).  What is missing: a word graph without weights. -/
theorem C313_nbest_file_partial (weights : List (String × String)) (hw : weights ≠ []) (va : List Bool)
    (hs : List Hyp) (hc : ∀ h ∈ hs, Clean h.words ∧ Clean h.comps) :
    readFile va (fileOf weights hs) =
      hs.map fun h => (h.words, if va = [] then h.comps else select va h.comps) := by
  have hne : weights.isEmpty = false := by
    cases weights with
    | nil => exact absurd rfl hw
    | cons _ _ => rfl
  have e := entryLines_eq hs []
  simp only [List.nil_append, List.length_nil] at e
  unfold fileOf printNbList readFile
  simp only [hne, Bool.false_eq_true, if_false, e, List.singleton_append, List.drop_succ_cons, List.drop_zero, List.map_map]
  apply List.map_congr_left
  intro h hh
  obtain ⟨h1, h2⟩ := readEntry_entryLine va h (hc h hh).2 (hc h hh).1
  simp only [Function.comp, h1, h2]

example : readFile [true, false] (fileOf [("lm", "1"), ("wp", "2")]
    [⟨"-1", ["a", "b"], ["-1", "0"], [(0, 1)]⟩, ⟨"-2", [], ["-2", "1"], [(0, 2), (2, 3)]⟩]) =
    [(["a", "b"], ["-1"]), ([], ["-2"])] := by decide +kernel

/-! ### C314 -/

/-- **C314.** Without component weights the file has no header: what is read are the translations of all the elements
but the first, the best one, which is lost; and an element whose score components are missing is read with its arcs in
place of them. -/
theorem C314_lost_without_weights (hs : List Hyp) (hc : ∀ h ∈ hs, Clean h.words ∧ Clean h.comps) :
    readFile [] (fileOf [] hs) = (hs.drop 1).map fun h => (h.words, h.comps) := by
  have e := entryLines_eq hs []
  simp only [List.nil_append, List.length_nil] at e
  unfold fileOf printNbList readFile
  simp only [List.isEmpty_nil, if_true, e, List.nil_append]
  rw [← List.map_drop, List.map_map]
  apply List.map_congr_left
  intro h hh
  have hm : h ∈ hs := List.mem_of_mem_drop hh
  obtain ⟨h1, h2⟩ := readEntry_entryLine [] h (hc h hm).2 (hc h hm).1
  simp only [Function.comp, h1, h2, if_true]

/-- The second statement of C314: arcs taken for score components. -/
theorem C314_arcs_for_components (score : String) (words : List String) (arcs : List (Nat × Nat))
    (ha : Clean (arcs.map arcText)) :
    compsLoop [] 0 ((entryLine score words none (some arcs)).drop 2) =
      arcs.map fun a => toString a.1 ++ "->" ++ toString a.2 := by
  have e : (entryLine score words none (some arcs)).drop 2 = arcs.map arcText ++ bars :: words := by
    simp [entryLine]
  rw [e, compsLoop_all _ _ _ ha]
  rfl

example : readFile [] (fileOf [] [⟨"-1", ["a"], ["-1"], [(0, 1)]⟩, ⟨"-2", ["b"], ["-2"], [(0, 2)]⟩]) =
    [(["b"], ["-2"])] := by decide +kernel
example : Clean ([(0, 1)].map arcText) := by decide +kernel

/-! ### C315 -/

theorem currWeights_sel {W : Type} : ∀ (ws : List W) (pre va : List Bool), va.length = ws.length →
    pre ++ va ≠ [] → currWeights (pre ++ va) pre.length ws = select va ws := by
  intro ws
  induction ws with
  | nil =>
    intro pre va h _
    cases va with
    | nil => rfl
    | cons _ _ => simp at h
  | cons w r ih =>
    intro pre va h hne
    cases va with
    | nil => simp at h
    | cons b vs =>
      have hne' : (pre ++ b :: vs).isEmpty = false := by simp
      have hd : (pre ++ b :: vs).getD pre.length false = b := by simp [List.getD]
      have e : pre ++ b :: vs = (pre ++ [b]) ++ vs := by simp
      have hl : pre.length + 1 = (pre ++ [b]).length := by simp
      have := ih (pre ++ [b]) vs (by simpa using h) (by simp)
      rw [← e, ← hl] at this
      simp only [currWeights, hne', hd, Bool.false_eq_true, if_false, this]
      cases b <;> simp [select]

theorem select_length {A : Type} : ∀ (va : List Bool) (xs : List A), va.length = xs.length →
    (select va xs).length = va.count true := by
  intro va
  induction va with
  | nil => intro xs _; simp [select]
  | cons b vs ih =>
    intro xs h
    cases xs with
    | nil => simp at h
    | cons x r =>
      have := ih r (by simpa using h)
      simp only [select, List.length_map] at this ⊢
      cases b <;> simp [this]

theorem printLoop_spec {W : Type} (zero : W) : ∀ (va : List Bool) (new : List W), new.length = va.count true →
    (printLoop zero va new).length = va.length ∧ select va (printLoop zero va new) = new ∧
    ∀ (i : Nat), va[i]? = some false → (printLoop zero va new)[i]? = some zero := by
  intro va
  induction va with
  | nil =>
    intro new h
    simp at h
    subst h
    exact ⟨rfl, rfl, by intro i hi; simp at hi⟩
  | cons b vs ih =>
    intro new h
    cases b with
    | true =>
      cases new with
      | nil => simp at h
      | cons w ws =>
        obtain ⟨h1, h2, h3⟩ := ih ws (by simpa using h)
        refine ⟨by simp [printLoop, h1], ?_, ?_⟩
        · simp only [printLoop]
          simp only [select, List.zip_cons_cons, List.filter_cons_of_pos, List.map_cons] at h2 ⊢
          rw [h2]
        · intro i hi
          cases i with
          | zero => simp at hi
          | succ i => simpa [printLoop] using h3 i (by simpa using hi)
    | false =>
      obtain ⟨h1, h2, h3⟩ := ih new (by simpa using h)
      refine ⟨by simp [printLoop, h1], ?_, ?_⟩
      · simpa [printLoop, select] using h2
      · intro i hi
        cases i with
        | zero => simp [printLoop]
        | succ i => simpa [printLoop] using h3 i (by simpa using hi)

/-- **C315.** With a value of `-va` for each weight, an algorithm that returns as many weights as it receives gets the
weights at the marked positions, and the result printed has as many weights as given: those returned at the marked
positions, in order, and zero at the other ones. -/
theorem C315_selected_weights {W Nb : Type} (zero : W) (va : List Bool) (hva : va ≠ []) (upd : Nb → List W → List W)
    (hupd : ∀ nb ws, (upd nb ws).length = ws.length) (nb : Nb) (ws : List W) (hl : va.length = ws.length) :
    let out := update zero va upd nb ws
    out.length = ws.length ∧ select va out = upd nb (select va ws) ∧
      ∀ (i : Nat), va[i]? = some false → out[i]? = some zero := by
  intro out
  have hc : currWeights va 0 ws = select va ws := by
    have := currWeights_sel ws [] va hl (by simpa using hva)
    simpa using this
  have ho : out = printLoop zero va (upd nb (select va ws)) := by
    simp only [out, update, printWeights, hc]
    cases va with
    | nil => exact absurd rfl hva
    | cons _ _ => rfl
  obtain ⟨h1, h2, h3⟩ := printLoop_spec zero va (upd nb (select va ws))
    (by rw [hupd, select_length va ws hl])
  rw [ho]
  exact ⟨by rw [h1, hl], h2, h3⟩

example : update 0 [true, false, true] (fun (_ : Unit) ws => ws.map (· + 10)) () [1, 2, 3] = [11, 0, 13] := by
  decide +kernel

/-! ### C316 -/

abbrev Str := Thot.Awk.Str

/-- **C316 (as a user expects it).** `-va` is optional, as the usage message says and the tuning script assumes: files
and weights are enough. -/
def C316_full : Prop :=
  ∀ (nb r : Str) (ws : List Str), nb ≠ [] → r ≠ [] → ws ≠ [] → (∀ w ∈ ws, Thot.Opts.isOption w = false) →
    Thot.Opts.isOption nb = false → Thot.Opts.isOption r = false →
    (takePars (fun s => some s) ("-w".toList :: ws ++ ["-nb".toList, nb, "-r".toList, r])).isSome

/-- `-w 1 -nb a -r b` is an error. -/
theorem C316_counterexample : ¬ C316_full := by
  intro h
  have := h ['a'] ['b'] [['1']] (by decide) (by decide) (by decide) (by decide +kernel) (by decide +kernel)
    (by decide +kernel)
  revert this
  decide +kernel

theorem readSeq_none {args : List Str} {label : Str} (h : label ∉ args) : Thot.Opts.readSeq label args = none := by
  induction args with
  | nil => rfl
  | cons a r ih =>
    cases r with
    | nil => rfl
    | cons b r' =>
      have h1 : a ≠ label := fun e => h (by rw [e]; exact List.mem_cons_self)
      have h2 : label ∉ b :: r' := fun hm => h (List.mem_cons_of_mem _ hm)
      rw [Thot.Opts.readSeq, if_neg h1]
      exact ih h2

/-- **C316 (partial).** The parameters are accepted exactly when both files are given and there are as many values of
`-va` as weights; so without `-va` they are accepted only if no weights are given.  What is missing: `-va` is not
optional. -/
theorem C316_parameters_partial {F : Type} (scan : Str → Option F) (args : List Str) :
    ((takePars scan args).isSome ↔
      (∃ nb, Thot.Opts.readVal "-nb".toList args = some nb ∧ nb ≠ []) ∧
      (∃ r, Thot.Opts.readVal "-r".toList args = some r ∧ r ≠ []) ∧
      ((Thot.Opts.readSeq "-va".toList args).getD []).length =
        ((Thot.Opts.readFloatSeq scan "-w".toList args).getD []).length) ∧
    ("-va".toList ∉ args → ∀ w ws, Thot.Opts.readFloatSeq scan "-w".toList args = some (w :: ws) →
      takePars scan args = none) := by
  have key : ∀ o : Option Str, (¬ o.getD [] = []) ↔ ∃ x, o = some x ∧ x ≠ [] := by
    intro o; cases o <;> simp
  constructor
  · rw [← key, ← key]
    unfold takePars
    dsimp only
    by_cases h1 : (Thot.Opts.readVal "-nb".toList args).getD [] = []
    · rw [if_pos h1]; exact ⟨fun hh => (by cases hh), fun hh => absurd h1 hh.1⟩
    · rw [if_neg h1]
      by_cases h2 : (Thot.Opts.readVal "-r".toList args).getD [] = []
      · rw [if_pos h2]; exact ⟨fun hh => (by cases hh), fun hh => absurd h2 hh.2.1⟩
      · rw [if_neg h2]
        by_cases h3 : ((Thot.Opts.readSeq "-va".toList args).getD []).length ≠
          ((Thot.Opts.readFloatSeq scan "-w".toList args).getD []).length
        · rw [if_pos h3]
          constructor
          · intro hh; cases hh
          · intro hh; exact absurd hh.2.2 h3
        · rw [if_neg h3]
          exact ⟨fun _ => ⟨h1, h2, Classical.not_not.1 h3⟩, fun _ => rfl⟩
  · intro hv w ws hw
    unfold takePars
    dsimp only
    rw [readSeq_none hv, hw]
    split
    · rfl
    · split
      · rfl
      · simp

/-! ### C317 -/

/-- **C317.** The n-best lists are those of the files named, in the order of the names, and there is an error exactly
when one of the files cannot be opened. -/
theorem C317_lists_of_files {Nm : Type} (va : List Bool) (files : Nm → Option (List Line)) : ∀ (names : List Nm),
    (readFiles va files names = none ↔ ∃ n ∈ names, files n = none) ∧
    ∀ rs, readFiles va files names = some rs →
      rs.length = names.length ∧
      ∀ (i : Nat) (n : Nm) (ls : List Line), names[i]? = some n → files n = some ls → rs[i]? = some (readFile va ls) := by
  intro names
  induction names with
  | nil => exact ⟨by simp [readFiles], by intro rs h; simp [readFiles] at h; subst h; simp⟩
  | cons n r ih =>
    obtain ⟨ih1, ih2⟩ := ih
    cases hf : files n with
    | none => exact ⟨by simp [readFiles, hf], by intro rs h; simp [readFiles, hf] at h⟩
    | some ls =>
      cases hr : readFiles va files r with
      | none =>
        obtain ⟨m, hm, hm'⟩ := ih1.1 hr
        refine ⟨?_, by intro rs h; simp [readFiles, hf, hr] at h⟩
        simp only [readFiles, hf, hr, true_iff]
        exact ⟨m, List.mem_cons_of_mem _ hm, hm'⟩
      | some rs0 =>
        obtain ⟨h1, h2⟩ := ih2 rs0 hr
        constructor
        · simp only [readFiles, hf, hr]
          constructor
          · intro h; cases h
          · rintro ⟨m, hm, hm'⟩
            rcases List.mem_cons.1 hm with e | hm
            · rw [e, hf] at hm'; cases hm'
            · rw [ih1.2 ⟨m, hm, hm'⟩] at hr; cases hr
        · intro rs h
          simp only [readFiles, hf, hr, Option.some.injEq] at h
          subst h
          refine ⟨by simp [h1], ?_⟩
          intro i m ls' hi hls
          cases i with
          | zero =>
            simp only [List.getElem?_cons_zero, Option.some.injEq] at hi ⊢
            subst hi
            rw [hf] at hls
            injection hls with hls
            rw [hls]
          | succ i =>
            simp only [List.getElem?_cons_succ] at hi ⊢
            exact h2 i m ls' hi hls

example : readFiles [] (fun (n : Nat) => if n = 3 then none else some [["h"], ["s", "|||", "c", "|||", "w"]]) [1, 2] =
    some [[(["w"], ["c"])], [(["w"], ["c"])]] := by decide +kernel

end Thot.NbFile
