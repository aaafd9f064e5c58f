import Verif.Handler.Model
/-!
Properties C318-C320: names of the features and interpolation weights of the single word models.
-/
namespace Thot.Handler

variable {V : Type}

/-! ### C318 -/

/-- The weights in the file of an entry. -/
def lamOf (disk : Disk V) (e : Entry) : Option (V × V) := loadSwmLambdas (disk (e.file ++ ".lambda"))

/-- The features of the models with their weights. -/
def modelFeats (ms : List (Entry × V × V)) : List (Feat V) :=
  ms.flatMap fun m => [⟨"pts_" ++ m.1.status, .direct m.2.1⟩, ⟨"pst_" ++ m.1.status, .inverse m.2.2⟩]

theorem addModels_some (disk : Disk V) : ∀ (es : List Entry) (h h' : Hdl V), addModels disk es h = some h' →
    ∃ ms : List (Entry × V × V), ms.map (·.1) = es ∧ (∀ m ∈ ms, lamOf disk m.1 = some m.2) ∧
      h' = ⟨h.feats ++ modelFeats ms, h.dirNames ++ es.map (fun e => "pts_" ++ e.status),
        h.invNames ++ es.map (fun e => "pst_" ++ e.status), h.entries ++ es⟩ := by
  intro es
  induction es with
  | nil =>
    intro h h' hh
    simp only [addModels, Option.some.injEq] at hh
    exact ⟨[], rfl, by simp, by rw [← hh]; simp [modelFeats]⟩
  | cons e r ih =>
    intro h h' hh
    simp only [addModels, addModel] at hh
    cases hl : loadSwmLambdas (disk (e.file ++ ".lambda")) with
    | none => simp [hl] at hh
    | some ab =>
      obtain ⟨a, b⟩ := ab
      simp only [hl] at hh
      obtain ⟨ms, h1, h2, h3⟩ := ih _ _ hh
      refine ⟨(e, a, b) :: ms, by simp [h1], ?_, ?_⟩
      · intro m hm
        rcases List.mem_cons.1 hm with rfl | hm
        · exact hl
        · exact h2 m hm
      · rw [h3]; simp [modelFeats]

theorem addModels_isSome (disk : Disk V) : ∀ (es : List Entry) (h : Hdl V),
    (∀ e ∈ es, (lamOf disk e).isSome) → (addModels disk es h).isSome := by
  intro es
  induction es with
  | nil => intro h _; rfl
  | cons e r ih =>
    intro h hs
    have := hs e (by simp)
    unfold lamOf at this
    simp only [addModels, addModel]
    cases hl : loadSwmLambdas (disk (e.file ++ ".lambda")) with
    | none => rw [hl] at this; cases this
    | some ab => exact ih _ (fun e he => hs e (List.mem_cons_of_mem _ he))

/-- **C318.** With a descriptor of language models and one of translation models: loading succeeds if and only if
there is at least one translation model and every file of interpolation weights can be read, and then the features are,
in this order, the word penalty, one for each language model, a direct and an inverse one for each translation model,
and those for source length, target length and jumps: `1 + #lm + 2 #tm + 3` in all. -/
theorem C318_feature_names (disk : Disk V) (lms tms : List Entry) :
    ((load disk (.descriptor lms) (.descriptor tms)).isSome ↔
      tms ≠ [] ∧ ∀ e ∈ tms, (loadSwmLambdas (disk (e.file ++ ".lambda"))).isSome) ∧
    ∀ h, load disk (.descriptor lms) (.descriptor tms) = some h →
      h.feats.map (·.name) = "wp" :: lms.map (fun e => "lm_" ++ e.status) ++
        tms.flatMap (fun e => ["pts_" ++ e.status, "pst_" ++ e.status]) ++
        ["src_phr_len", "trg_phr_len", "src_pos_jump"] ∧
      h.feats.length = 1 + lms.length + 2 * tms.length + 3 := by
  have len : ∀ l : List Entry, (l.flatMap (fun e => ["pts_" ++ e.status, "pst_" ++ e.status])).length = 2 * l.length := by
    intro l
    induction l with
    | nil => rfl
    | cons a r ih => simp only [List.flatMap_cons, List.length_append, ih, List.length_cons, List.length_nil]; omega
  have names : ∀ ms : List (Entry × V × V), (modelFeats ms).map (·.name) =
      (ms.map (·.1)).flatMap (fun e => ["pts_" ++ e.status, "pst_" ++ e.status]) := by
    intro ms
    induction ms with
    | nil => rfl
    | cons m r ih =>
      simp only [modelFeats, List.flatMap_cons, List.map_append, List.map_cons, List.map_nil] at ih ⊢
      rw [ih]
  constructor
  · simp only [load, loadBi]
    constructor
    · intro hh
      cases hm : addModels disk tms (loadMono (.descriptor lms) ⟨[], [], [], []⟩) with
      | none => simp [hm] at hh
      | some h' =>
        obtain ⟨ms, h1, h2, h3⟩ := addModels_some disk _ _ _ hm
        simp only [hm] at hh
        constructor
        · intro ht
          subst ht
          rw [h3] at hh
          simp [addLens, loadMono] at hh
        · intro e he
          rw [← h1] at he
          obtain ⟨m, hmm, rfl⟩ := List.mem_map.1 he
          have := h2 m hmm
          unfold lamOf at this
          rw [this]; rfl
    · rintro ⟨ht, hs⟩
      have := addModels_isSome disk tms (loadMono (.descriptor lms) ⟨[], [], [], []⟩) hs
      cases hm : addModels disk tms (loadMono (.descriptor lms) ⟨[], [], [], []⟩) with
      | none => rw [hm] at this; cases this
      | some h' =>
        obtain ⟨ms, h1, h2, h3⟩ := addModels_some disk _ _ _ hm
        rw [h3]
        simp [addLens, loadMono, ht]
  · intro h hh
    simp only [load, loadBi] at hh
    cases hm : addModels disk tms (loadMono (.descriptor lms) ⟨[], [], [], []⟩) with
    | none => simp [hm] at hh
    | some h' =>
      obtain ⟨ms, h1, h2, h3⟩ := addModels_some disk _ _ _ hm
      simp only [hm, addLens] at hh
      split at hh
      · cases hh
      · injection hh with hh
        have hn : h.feats.map (·.name) = "wp" :: lms.map (fun e => "lm_" ++ e.status) ++
            tms.flatMap (fun e => ["pts_" ++ e.status, "pst_" ++ e.status]) ++
            ["src_phr_len", "trg_phr_len", "src_pos_jump"] := by
          rw [← hh, h3]
          simp only [List.map_append, names, h1, loadMono]
          simp [Function.comp_def]
        refine ⟨hn, ?_⟩
        have := congrArg List.length hn
        simp only [List.length_map, List.length_append, List.length_cons, len, List.length_nil] at this
        omega

/-- Two models on the disk. -/
def toyDisk : Disk Nat := fun f =>
  if f = "a.lambda" then some [[1, 2]] else if f = "b.lambda" then some [[3], [7]] else none

example : ((load toyDisk (.descriptor [⟨"main", "l"⟩]) (.descriptor [⟨"main", "a"⟩, ⟨"back", "b"⟩])).map
    fun h => h.feats.map (·.name)) = some ["wp", "lm_main", "pts_main", "pst_main", "pts_back", "pst_back",
      "src_phr_len", "trg_phr_len", "src_pos_jump"] := by decide +kernel

/-! ### C319 -/

/-- **C319 (as a user expects it).** Saving the interpolation weights of the models just loaded does not change the
weights that the files give. -/
def C319_full : Prop :=
  ∀ (V : Type) (disk disk' : Disk V) (lm : Source) (tms : List Entry) (h : Hdl V),
    load disk lm (.descriptor tms) = some h → printLambdas h (.descriptor tms) disk = some disk' →
    ∀ f, loadSwmLambdas (disk' f) = loadSwmLambdas (disk f)

/-- Two models with the same status: the weights of the first one are saved for both. -/
theorem C319_counterexample : ¬ C319_full := by
  intro hf
  cases hl : load toyDisk .nothing (.descriptor [⟨"main", "a"⟩, ⟨"main", "b"⟩]) with
  | none =>
    have : (load toyDisk .nothing (.descriptor [⟨"main", "a"⟩, ⟨"main", "b"⟩])).isSome = true := by decide +kernel
    rw [hl] at this; cases this
  | some h =>
    have key : ((load toyDisk .nothing (.descriptor [⟨"main", "a"⟩, ⟨"main", "b"⟩])).bind fun h =>
      (printLambdas h (.descriptor [⟨"main", "a"⟩, ⟨"main", "b"⟩]) toyDisk).bind fun d =>
        loadSwmLambdas (d "b.lambda")) = some (1, 2) := by decide +kernel
    rw [hl] at key
    simp only [Option.bind_some] at key
    cases hp : printLambdas h (.descriptor [⟨"main", "a"⟩, ⟨"main", "b"⟩]) toyDisk with
    | none => rw [hp] at key; cases key
    | some d =>
      rw [hp] at key
      simp only [Option.bind_some] at key
      have := hf Nat toyDisk d .nothing _ h hl hp "b.lambda"
      rw [key] at this
      revert this
      decide +kernel

theorem get_idx (n : String) : ∀ (fs : List (Feat V)),
    fs[getFeatureIdx n fs]? = fs.find? (fun f => decide (n = f.name)) := by
  intro fs
  induction fs with
  | nil => rfl
  | cons f r ih =>
    by_cases h : n = f.name
    · simp [getFeatureIdx, h]
    · simp [getFeatureIdx, h, ih]

theorem append_inj (p a b : String) (h : p ++ a = p ++ b) : a = b := by
  have := congrArg String.toList h
  simp only [String.toList_append, List.append_cancel_left_eq] at this
  exact String.toList_inj.1 this

theorem pts_ne_pst (a b : String) : "pts_" ++ a ≠ "pst_" ++ b := by
  intro h
  have := congrArg String.toList h
  simp [String.toList_append] at this

theorem find_models (m : Entry × V × V) : ∀ (ms : List (Entry × V × V)) (post : List (Feat V)), m ∈ ms →
    (ms.map (fun x => x.1.status)).Nodup →
    (modelFeats ms ++ post).find? (fun f => decide ("pts_" ++ m.1.status = f.name)) =
      some ⟨"pts_" ++ m.1.status, .direct m.2.1⟩ ∧
    (modelFeats ms ++ post).find? (fun f => decide ("pst_" ++ m.1.status = f.name)) =
      some ⟨"pst_" ++ m.1.status, .inverse m.2.2⟩ := by
  intro ms
  induction ms with
  | nil => intro post h; cases h
  | cons x r ih =>
    intro post hm hd
    simp only [List.map_cons, List.nodup_cons] at hd
    have e : modelFeats (x :: r) ++ post = ⟨"pts_" ++ x.1.status, .direct x.2.1⟩ ::
        ⟨"pst_" ++ x.1.status, .inverse x.2.2⟩ :: (modelFeats r ++ post) := by simp [modelFeats]
    rw [e]
    have n1 : "pst_" ++ m.1.status ≠ "pts_" ++ x.1.status := fun h => pts_ne_pst _ _ h.symm
    have n2 : "pts_" ++ m.1.status ≠ "pst_" ++ x.1.status := pts_ne_pst _ _
    rcases List.mem_cons.1 hm with rfl | hm
    · constructor
      · simp
      · rw [List.find?_cons_of_neg (by simpa using n1)]
        simp
    · have hne : m.1.status ≠ x.1.status := fun h => hd.1 (by
        rw [← h]; exact List.mem_map_of_mem (f := fun x : Entry × V × V => x.1.status) hm)
      have n3 : "pts_" ++ m.1.status ≠ "pts_" ++ x.1.status := fun h => hne (append_inj _ _ _ h)
      have n4 : "pst_" ++ m.1.status ≠ "pst_" ++ x.1.status := fun h => hne (append_inj _ _ _ h)
      obtain ⟨i1, i2⟩ := ih post hm hd.2
      constructor
      · rw [List.find?_cons_of_neg (by simpa using n3), List.find?_cons_of_neg (by simp [n2])]
        exact i1
      · rw [List.find?_cons_of_neg (by simpa using n1), List.find?_cons_of_neg (by simpa using n4)]
        exact i2

theorem mono_names (lm : Source) (p : String) (hp : p.toList.head? = some 'p') :
    ∀ f ∈ (loadMono (V := V) lm ⟨[], [], [], []⟩).feats, ¬ decide (p = f.name) = true := by
  intro f hf h
  have h : p = f.name := by simpa using h
  have hl : ∀ s : String, ("lm_" ++ s).toList.head? = some 'l' := by
    intro s; simp [String.toList_append]
  rw [h] at hp
  cases lm with
  | nothing => simp [loadMono] at hf
  | descriptor es =>
    simp only [loadMono, List.nil_append] at hf
    rcases List.mem_cons.1 hf with rfl | hf
    · dsimp only at hp; revert hp; decide +kernel
    · obtain ⟨e, _, rfl⟩ := List.mem_map.1 hf
      simp only [hl] at hp
      revert hp; decide
  | pref g =>
    simp only [loadMono, List.nil_append] at hf
    rcases List.mem_cons.1 hf with rfl | hf
    · dsimp only at hp; revert hp; decide +kernel
    · rcases List.mem_cons.1 hf with rfl | hf
      · dsimp only at hp; revert hp; decide +kernel
      · cases hf

theorem find_skip (pre fs : List (Feat V)) (q : Feat V → Bool) (h : ∀ f ∈ pre, ¬ q f = true) :
    (pre ++ fs).find? q = fs.find? q := by
  rw [List.find?_append]
  have : pre.find? q = none := List.find?_eq_none.2 h
  rw [this]; rfl

/-- Every file gives the weights it gave. -/
def SameLambdas (d d' : Disk V) : Prop := ∀ f, loadSwmLambdas (d' f) = loadSwmLambdas (d f)

theorem printLoop_same (h : Hdl V) (disk : Disk V) : ∀ (ms : List (Entry × V × V)) (d : Disk V),
    (∀ m ∈ ms, lamOf disk m.1 = some m.2 ∧
      h.feats[getFeatureIdx ("pts_" ++ m.1.status) h.feats]? = some ⟨"pts_" ++ m.1.status, .direct m.2.1⟩ ∧
      h.feats[getFeatureIdx ("pst_" ++ m.1.status) h.feats]? = some ⟨"pst_" ++ m.1.status, .inverse m.2.2⟩) →
    SameLambdas disk d →
    ∃ d', printLoop h ((ms.map (·.1)).map fun e => "pts_" ++ e.status) ((ms.map (·.1)).map fun e => "pst_" ++ e.status)
      (ms.map (·.1)) d = some d' ∧ SameLambdas disk d' := by
  intro ms
  induction ms with
  | nil => intro d _ hs; exact ⟨d, rfl, hs⟩
  | cons m r ih =>
    intro d hm hs
    obtain ⟨h1, h2, h3⟩ := hm m (by simp)
    simp only [List.map_cons, printLoop, printLambdasForModel, h2, h3]
    refine ih _ (fun x hx => hm x (List.mem_cons_of_mem _ hx)) ?_
    intro f
    dsimp only
    split
    · rename_i hf
      subst hf
      unfold lamOf at h1
      rw [h1]; rfl
    · exact hs f

/-- **C319 (partial).** If the models of the descriptor have different status, saving the interpolation weights of the
models just loaded succeeds and does not change the weights that any file gives.  What is missing: models with the same
status. -/
theorem C319_saved_weights_partial (disk : Disk V) (lm : Source) (tms : List Entry) (h : Hdl V)
    (hd : (tms.map (·.status)).Nodup) (hl : load disk lm (.descriptor tms) = some h) :
    ∃ disk', printLambdas h (.descriptor tms) disk = some disk' ∧
      ∀ f, loadSwmLambdas (disk' f) = loadSwmLambdas (disk f) := by
  simp only [load, loadBi] at hl
  cases hm : addModels disk tms (loadMono lm ⟨[], [], [], []⟩) with
  | none => simp [hm] at hl
  | some h' =>
    obtain ⟨ms, h1, h2, h3⟩ := addModels_some disk _ _ _ hm
    simp only [hm, addLens] at hl
    split at hl
    · cases hl
    · injection hl with hl
      have hnil : (loadMono (V := V) lm ⟨[], [], [], []⟩).dirNames = [] ∧
          (loadMono (V := V) lm ⟨[], [], [], []⟩).invNames = [] ∧
          (loadMono (V := V) lm ⟨[], [], [], []⟩).entries = [] := by
        cases lm <;> exact ⟨rfl, rfl, rfl⟩
      have e1 : h.dirNames = tms.map fun e => "pts_" ++ e.status := by rw [← hl, h3]; simp [hnil.1]
      have e2 : h.invNames = tms.map fun e => "pst_" ++ e.status := by rw [← hl, h3]; simp [hnil.2.1]
      have e3 : h.entries = tms := by rw [← hl, h3]; simp [hnil.2.2]
      have e4 : h.feats = (loadMono (V := V) lm ⟨[], [], [], []⟩).feats ++ (modelFeats ms ++
          [⟨"src_phr_len", .other⟩, ⟨"trg_phr_len", .other⟩, ⟨"src_pos_jump", .other⟩]) := by
        rw [← hl, h3]; simp
      have hd' : (ms.map (fun x => x.1.status)).Nodup := by
        have : ms.map (fun x => x.1.status) = tms.map (·.status) := by rw [← h1, List.map_map]; rfl
        rw [this]; exact hd
      have := printLoop_same h disk ms disk (fun m hmm => by
        obtain ⟨f1, f2⟩ := find_models m ms
          [⟨"src_phr_len", .other⟩, ⟨"trg_phr_len", .other⟩, ⟨"src_pos_jump", .other⟩] hmm hd'
        refine ⟨h2 m hmm, ?_, ?_⟩
        · rw [get_idx, e4, find_skip _ _ _ (mono_names lm _ (by simp [String.toList_append]))]
          exact f1
        · rw [get_idx, e4, find_skip _ _ _ (mono_names lm _ (by simp [String.toList_append]))]
          exact f2) (fun f => rfl)
      simp only [printLambdas, e1, e2, e3]
      rw [h1] at this
      exact this

example : ([⟨"main", "a"⟩, ⟨"back", "b"⟩].map (fun e : Entry => e.status)).Nodup := by decide +kernel

/-! ### C320 -/

/-- **C320.** A file of interpolation weights is accepted exactly when its first line has one or two values: with two
they are the weights of the direct and of the inverse model, with one it is the weight of both, and the other lines do
not matter.  What is saved is read back. -/
theorem C320_weights_file (file : Option (List (List V))) (a b : V) :
    (loadSwmLambdas file = some (a, b) ↔
      ∃ l rest, file = some (l :: rest) ∧ (l = [a, b] ∨ (l = [a] ∧ a = b))) ∧
    loadSwmLambdas (some (printSwmLambdas a b)) = some (a, b) := by
  refine ⟨?_, rfl⟩
  constructor
  · intro h
    match file, h with
    | some ([x] :: r), h =>
      simp only [loadSwmLambdas, Option.some.injEq, Prod.mk.injEq] at h
      exact ⟨[x], r, rfl, .inr ⟨by rw [h.1], by rw [← h.1, h.2]⟩⟩
    | some ([x, y] :: r), h =>
      simp only [loadSwmLambdas, Option.some.injEq, Prod.mk.injEq] at h
      exact ⟨[x, y], r, rfl, .inl (by rw [h.1, h.2])⟩
  · rintro ⟨l, rest, rfl, rfl | ⟨rfl, rfl⟩⟩ <;> rfl

example : loadSwmLambdas (toyDisk "b.lambda") = some (3, 3) := by decide +kernel

/-- With a prefix too, saving what has been loaded succeeds and does not change the weights. -/
theorem C320_saved_with_prefix (disk : Disk V) (lm : Source) (f : String) (h : Hdl V)
    (hl : load disk lm (.pref f) = some h) :
    ∃ disk', printLambdas h (.pref f) disk = some disk' ∧ ∀ g, loadSwmLambdas (disk' g) = loadSwmLambdas (disk g) := by
  simp only [load, loadBi, addModel] at hl
  cases hm : loadSwmLambdas (disk (f ++ ".lambda")) with
  | none => simp [hm] at hl
  | some ab =>
    obtain ⟨a, b⟩ := ab
    simp only [hm, addLens] at hl
    split at hl
    · cases hl
    · injection hl with hl
      have hnil : (loadMono (V := V) lm ⟨[], [], [], []⟩).dirNames = [] ∧
          (loadMono (V := V) lm ⟨[], [], [], []⟩).invNames = [] := by
        cases lm <;> exact ⟨rfl, rfl⟩
      have e1 : h.dirNames = ["pts"] := by rw [← hl]; simp [hnil.1]
      have e2 : h.invNames = ["pst"] := by rw [← hl]; simp [hnil.2]
      have f1 : h.feats[getFeatureIdx "pts" h.feats]? = some ⟨"pts", .direct a⟩ := by
        rw [get_idx, ← hl]
        simp only [List.append_assoc]
        rw [find_skip _ _ _ (mono_names lm "pts" (by decide))]
        simp
      have f2 : h.feats[getFeatureIdx "pst" h.feats]? = some ⟨"pst", .inverse b⟩ := by
        rw [get_idx, ← hl]
        simp only [List.append_assoc]
        rw [find_skip _ _ _ (mono_names lm "pst" (by decide))]
        simp
      refine ⟨_, by simp only [printLambdas, e1, e2, printLambdasForModel, f1, f2]; rfl, ?_⟩
      intro g
      split
      · rename_i hg; subst hg; rw [hm]; rfl
      · rfl

end Thot.Handler
