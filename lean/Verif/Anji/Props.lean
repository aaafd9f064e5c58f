import Verif.Anji.File
/-!
Properties of the matrix of expected values (`anjiMatrix`).

`tl n`, `sl n` are the lengths of the target and source sentences of the pair `n`; positions go up to them.
-/
namespace Thot.Anji
open Thot

/-! ### The window -/

/-- After any sequence of operations on a new matrix, each value read is the one of the specification: a first-in first-out window of
at most `R` sentence pairs (all of them if the size is not restricted), with the last value stored for each position of the sentence
pairs in the window and the mark of no value for everything else. No access is out of bounds, and no more than `R` entries are kept. -/
theorem C233_window (tl sl : Nat → Nat) (ops : List Op) (hok : ∀ o ∈ ops, o.ok tl sl) :
    ∃ m, Mat.new.run tl sl ops = some m ∧ m.maxn = (Spec.new.run ops).maxn ∧
      (∀ n j i, m.get n j i = (Spec.new.run ops).val n j i) ∧
      (∀ n j i, m.getInvp n j i = if (Spec.new.run ops).val n j i = 99 then 0 else (Spec.new.run ops).val n j i) ∧
      (∀ n j i, n ∉ (Spec.new.run ops).win → m.get n j i = 99) ∧
      (m.maxn ≠ 2 ^ 32 - 1 → m.anji.length = (Spec.new.run ops).win.length ∧ m.anji.length ≤ m.maxn) := by
  obtain ⟨m, h1, h2⟩ := (Inv.new tl sl).run ops hok
  refine ⟨m, h1, h2.maxn, h2.get, fun n j i => ?_, fun n j i hn => ?_, fun hR => ?_⟩
  · unfold Mat.getInvp
    rw [h2.get]; rfl
  · rw [h2.get]; exact h2.out n j i (Or.inl hn)
  · have hu : (Spec.new.run ops).maxn ≠ unres := by rw [← h2.maxn]; exact hR
    obtain ⟨buf, hb⟩ := h2.restr hu
    have : m.anji.length = buf.length := by rw [hb.anji, List.length_map]
    refine ⟨?_, by rw [this, h2.maxn]; exact hb.len⟩
    rw [this, hb.win]
    split
    · rfl
    · rw [List.length_append, List.length_drop, List.length_take]; omega

/-- Non-vacuity: with two entries, the third sentence pair takes the place of the first one. -/
example : ∃ m, Mat.new.run (fun _ => 1) (fun _ => 1) [.setMax 2, .put 5 1 0 (1/2), .put 7 1 1 (1/3), .put 5 1 1 (1/4), .put 9 0 1 (1/5)] = some m ∧
    m.get 5 1 0 = 99 ∧ m.get 7 1 1 = 1/3 ∧ m.get 9 0 1 = 1/5 ∧ m.anji.length = 2 := by
  refine ⟨_, rfl, ?_⟩
  decide +kernel

/-! ### Files -/

/-- A matrix printed and loaded in another one behaves as the first one whatever is done next: the same values, and the same values
after any other operations. -/
def SameFrom (tl sl : Nat → Nat) (m m' : Mat) : Prop :=
  ∀ ops, (∀ o ∈ ops, Op.ok tl sl o) → ∃ a b, m.run tl sl ops = some a ∧ m'.run tl sl ops = some b ∧
    a.maxn = b.maxn ∧ ∀ n j i, a.get n j i = b.get n j i

/-- The claim for the matrices of any two histories and any files of the same prefix. -/
def C234_full : Prop := ∀ (tl sl : Nat → Nat) (ops ops0 : List Op) (fs : Files) (m m0 : Mat),
  (∀ o ∈ ops, Op.ok tl sl o) → (∀ o ∈ ops0, Op.ok tl sl o) → Mat.new.run tl sl ops = some m → Mat.new.run tl sl ops0 = some m0 →
  ∃ m', m0.load (m.print fs) = some (false, m') ∧ SameFrom tl sl m m'

/-- What holds: the matrix loaded has no maximum size when it is loaded, and if the matrix printed has none there is no file
`.msinfo` left by a previous matrix. -/
theorem C234_roundtrip_partial (tl sl : Nat → Nat) (ops : List Op) (fs : Files) (m m0 : Mat)
    (hok : ∀ o ∈ ops, Op.ok tl sl o) (hm : Mat.new.run tl sl ops = some m) (h0 : m0.maxn = 2 ^ 32 - 1)
    (hf : m.maxn = 2 ^ 32 - 1 → fs.ms = none) :
    ∃ m', m0.load (m.print fs) = some (false, m') ∧ SameFrom tl sl m m' := by
  obtain ⟨m1, h1, h2⟩ := (Inv.new tl sl).run ops hok
  rw [hm] at h1
  injection h1 with h1
  subst h1
  obtain ⟨m', h3, h4⟩ := h2.printLoad m0 h0 fs (fun hu => hf (h2.maxn.trans hu))
  refine ⟨m', h3, fun ops' hok' => ?_⟩
  obtain ⟨a, ha, hia⟩ := h2.run ops' hok'
  obtain ⟨b, hb, hib⟩ := h4.run ops' hok'
  exact ⟨a, b, ha, hb, hia.maxn.trans hib.maxn.symm, fun n j i => (hia.get n j i).trans (hib.get n j i).symm⟩

/-- Non-vacuity: the file of the window of the example. -/
example : ∃ m, Mat.new.run (fun _ => 1) (fun _ => 1) [.setMax 2, .put 5 1 0 (1/2), .put 7 1 1 (1/3), .put 9 0 1 (1/5)] = some m ∧
    m.np2n = [(true, 9), (true, 7)] ∧ m.ptr = 1 ∧ m.recs.length = 8 := by
  refine ⟨_, rfl, ?_⟩
  decide +kernel

/-- With maximum size 0 in the matrix that loads, every value is lost, although no error is given. -/
theorem C234_counterexample : ¬ C234_full := by
  intro h
  obtain ⟨m', h1, h2⟩ := h (fun _ => 0) (fun _ => 0) [.put 0 0 0 1] [.setMax 0] ⟨none, none⟩
    ⟨unres, 0, [[[1]]], [], []⟩ ⟨0, 0, [], [], []⟩
    (by intro o ho; rw [List.mem_singleton] at ho; subst ho; exact ⟨by decide, Nat.le_refl _, Nat.le_refl _⟩)
    (by intro o ho; rw [List.mem_singleton] at ho; subst ho; exact Or.inl (by decide))
    (by decide +kernel) (by decide +kernel)
  have hl : Mat.load ⟨0, 0, [], [], []⟩ (Mat.print ⟨unres, 0, [[[1]]], [], []⟩ ⟨none, none⟩) = some (false, ⟨unres, 0, [], [], []⟩) := by
    rfl
  rw [hl] at h1
  injection h1 with h1
  injection h1 with _ h1
  subst h1
  obtain ⟨a, b, ha, hb, _, hg⟩ := h2 [] (by simp)
  have ea : a = ⟨unres, 0, [[[1]]], [], []⟩ := by have : some _ = some a := ha; injection this with e; exact e.symm
  have eb : b = ⟨unres, 0, [], [], []⟩ := by have : some _ = some b := hb; injection this with e; exact e.symm
  have := hg 0 0 0
  rw [ea, eb] at this
  revert this
  decide +kernel

/-- A matrix without maximum size printed where a restricted matrix was printed before takes the maximum size, the pointer and the
mapping of the old one when it is loaded. -/
theorem C234_stale (m m1 m0 : Mat) (fs : Files) (h : m.maxn = 2 ^ 32 - 1) (hR : m1.maxn ≠ 2 ^ 32 - 1) :
    (m.print (m1.print fs)).ms = some m1.msinfo ∧ m0.load (m.print (m1.print fs)) = m0.load ⟨some m.recs, some m1.msinfo⟩ := by
  have e1 : ¬ (m.maxn ≠ unres) := fun hc => hc h
  have e2 : m1.maxn ≠ unres := hR
  unfold Mat.print
  rw [if_neg e1, if_pos e2]
  exact ⟨rfl, rfl⟩

end Thot.Anji
