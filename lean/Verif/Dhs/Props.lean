import Verif.Dhs.Model
import Verif.Awk.Props
import Verif.SentHandler.Lemmas
namespace Thot.Dhs

/-! ### Specification: running a computation with a function -/

/-- The result of a computation when the value at every point is given by `F`, and the points asked for, in order. -/
def evalWith {α : Type} (F : Pt → Rat) : Prog α → α × List Pt
  | .done a => (a, [])
  | .ask x k => ((evalWith F (k (F x))).1, x :: (evalWith F (k (F x))).2)

theorem eval_done {α : Type} (F : Pt → Rat) (a : α) : evalWith F (.done a) = (a, []) := rfl

theorem eval_ask {α : Type} (F : Pt → Rat) (x : Pt) (k : Rat → Prog α) :
    evalWith F (.ask x k) = ((evalWith F (k (F x))).1, x :: (evalWith F (k (F x))).2) := rfl

theorem eval_bind {α β : Type} (F : Pt → Rat) : ∀ (p : Prog α) (f : α → Prog β),
    evalWith F (p.bind f) = ((evalWith F (f (evalWith F p).1)).1, (evalWith F p).2 ++ (evalWith F (f (evalWith F p).1)).2)
  | .done a, f => by simp [Prog.bind, evalWith]
  | .ask x k, f => by
    rw [Prog.bind, eval_ask, eval_bind F (k (F x)) f, eval_ask]
    rfl

/-! ### C188: the step-by-step protocol -/

theorem replay_prefix {α : Type} (F : Pt → Rat) : ∀ (p : Prog α) (k : Nat), k ≤ (evalWith F p).2.length →
    replay p (((evalWith F p).2.take k).map F) =
      match (evalWith F p).2[k]? with
      | none => .inl (evalWith F p).1
      | some x => .inr x
  | .done a, k, _ => by simp [evalWith, replay]
  | .ask x c, 0, _ => by simp [evalWith, replay]
  | .ask x c, k + 1, h => by
    rw [eval_ask] at h ⊢
    simp only [List.take_succ_cons, List.map_cons, replay, List.getElem?_cons_succ]
    exact replay_prefix F (c (F x)) k (by simpa using h)

/-- **C188 (replay).** If the file holds the values at the first `k` points asked for by the minimisation of `F`, the
program asks for the next point, or, when there is none, returns the result of the minimisation of `F`. -/
theorem C188_replay (F : Pt → Rat) (c : Cfg) (k : Nat) (h : k ≤ (evalWith F c.prog).2.length) :
    replay c.prog (((evalWith F c.prog).2.take k).map F) =
      match (evalWith F c.prog).2[k]? with
      | none => .inl (evalWith F c.prog).1
      | some x => .inr x := replay_prefix F c.prog k h

/-- The output of the target function is one line that is not empty. -/
def OneLine (s : Awk.Str) : Prop := ∃ l, l ≠ [] ∧ '\n' ∉ l ∧ s = l ++ ['\n']

theorem getline_line : ∀ (l r : Awk.Str), '\n' ∉ l → Awk.getline (l ++ '\n' :: r) = some (l ++ ['\n'], r)
  | [], r, _ => by simp [Awk.getline]
  | c :: l, r, h => by
    have h1 : c ≠ '\n' := fun hc => h (by simp [hc])
    have ih := getline_line l r (fun hc => h (List.mem_cons_of_mem _ hc))
    rw [List.cons_append, Awk.getline, if_neg h1, ih]
    rfl

theorem readImages_lines (atof : Awk.Str → Rat) : ∀ (ls : List Awk.Str) (fuel : Nat), (∀ s ∈ ls, OneLine s) → ls.length < fuel →
    readImages atof fuel ls.flatten = ls.map atof
  | [], 0, _, h => by simp at h
  | [], fuel + 1, _, _ => by simp [readImages, Awk.getline]
  | s :: ls, 0, _, h => by simp at h
  | s :: ls, fuel + 1, hl, h => by
    obtain ⟨l, hl0, hln, rfl⟩ := hl s (List.mem_cons_self ..)
    have ih := readImages_lines atof ls fuel (fun x hx => hl x (List.mem_cons_of_mem _ hx)) (by simpa using h)
    rw [List.flatten_cons, List.append_assoc, List.singleton_append, readImages, getline_line l _ hln]
    simp only
    have hp : 0 < l.length := List.length_pos_iff.2 hl0
    rw [if_pos (by simp; omega), ih]
    rfl

theorem flatten_length (ls : List Awk.Str) (h : ∀ s ∈ ls, OneLine s) : ls.length ≤ ls.flatten.length := by
  induction ls with
  | nil => simp
  | cons s ls ih =>
    obtain ⟨l, _, _, rfl⟩ := h s (List.mem_cons_self ..)
    have := ih (fun x hx => h x (List.mem_cons_of_mem _ hx))
    simp only [List.length_cons, List.flatten_cons, List.length_append, List.length_nil]
    omega

/-- The function that is minimised: the value read from the output of the target function for the printed variables. -/
def objective (atof : Awk.Str → Rat) (pr : Rat → Rat) (target : List Rat → Awk.Str) (c : Cfg) (x : Pt) : Rat :=
  atof (target (printed pr c x))

/-- **C188 (the loop of the script).** Started with the file of the outputs of the target function at the first `k` points
(`k = 0`: a new adjustment; `k > 0`: a resumed one), with a target function that writes one line, the script ends after
one more run of the program than points are left, with the point that the minimisation of the target function returns and
the outputs at all the points in the file. -/
theorem C188_drive (atof : Awk.Str → Rat) (pr : Rat → Rat) (target : List Rat → Awk.Str) (htg : ∀ v, OneLine (target v))
    (c : Cfg) (k : Nat) :
    let r := evalWith (objective atof pr target c) c.prog
    k ≤ r.2.length → ∀ extra, drive atof pr target c (r.2.length - k + 1 + extra)
        ((r.2.take k).map (fun x => target (printed pr c x))).flatten =
      some (printed pr c r.1.sol, (r.2.map (fun x => target (printed pr c x))).flatten) := by
  intro r
  generalize hd : r.2.length - k = d
  induction d generalizing k with
  | zero =>
    intro hk extra
    have hkl : k = r.2.length := by omega
    have hall : ∀ s ∈ (r.2.take k).map (fun x => target (printed pr c x)), OneLine s := by
      intro s hs
      obtain ⟨x, _, rfl⟩ := List.mem_map.1 hs
      exact htg _
    have hr := C188_replay (objective atof pr target c) c k hk
    have hi := readImages_lines atof _ (((r.2.take k).map (fun x => target (printed pr c x))).flatten.length + 1) hall
      (Nat.lt_succ_of_le (flatten_length _ hall))
    have e : ((r.2.take k).map (fun x => target (printed pr c x))).map atof = (r.2.take k).map (objective atof pr target c) := by
      rw [List.map_map]; rfl
    rw [Nat.zero_add, Nat.add_comm, drive, tool, hi, e, hr, List.getElem?_eq_none (by show r.2.length ≤ k; omega)]
    simp only
    rw [hkl, List.take_length]
  | succ d ih =>
    intro hk extra
    have hkl : k < r.2.length := by omega
    have hall : ∀ s ∈ (r.2.take k).map (fun x => target (printed pr c x)), OneLine s := by
      intro s hs
      obtain ⟨x, _, rfl⟩ := List.mem_map.1 hs
      exact htg _
    have hr := C188_replay (objective atof pr target c) c k hk
    have hi := readImages_lines atof _ (((r.2.take k).map (fun x => target (printed pr c x))).flatten.length + 1) hall
      (Nat.lt_succ_of_le (flatten_length _ hall))
    have e : ((r.2.take k).map (fun x => target (printed pr c x))).map atof = (r.2.take k).map (objective atof pr target c) := by
      rw [List.map_map]; rfl
    have ih' := ih (k + 1) (by omega) (by omega) extra
    rw [show d + 1 + 1 + extra = (d + 1 + extra) + 1 from by omega, drive, tool, hi, e, hr,
      List.getElem?_eq_getElem (show k < (evalWith (objective atof pr target c) c.prog).2.length from hkl)]
    simp only
    rw [← ih', List.take_add_one, List.getElem?_eq_getElem hkl]
    simp only [Option.toList_some, List.map_append, List.map_cons, List.map_nil, List.flatten_append, List.flatten_cons,
      List.flatten_nil, List.append_nil]
    rfl

/-- A target function that writes nothing makes the script ask for the same point again. -/
theorem C188_silent (atof : Awk.Str → Rat) (pr : Rat → Rat) (c : Cfg) (images : Awk.Str) (x : Pt)
    (h : tool atof c images = .inr x) (fuel : Nat) : drive atof pr (fun _ => []) c fuel images = none := by
  induction fuel with
  | zero => rfl
  | succ fuel ih => rw [drive, h]; simpa using ih

/-! ### C189: number of evaluations -/

theorem askAll_eval (F : Pt → Rat) : ∀ ps : List Pt, evalWith F (askAll ps) = (ps.map F, ps)
  | [] => rfl
  | p :: ps => by
    rw [askAll, eval_ask, eval_bind, askAll_eval F ps, eval_done]
    simp

theorem initial_length (n : Nat) (pn qn : Rat) (start : Pt) : (initial n pn qn start).length = n + 1 := by simp [initial]

theorem shrinkStep_eval (F : Pt → Rat) (n : Nat) (st : St) (vg vs vh : Nat) :
    evalWith F (shrinkStep n st vg vs vh) =
      (⟨shrink n st.v vs, (st.f.set vg (F (vat (shrink n st.v vs) vg))).set vh (F (vat (shrink n st.v vs) vh))⟩,
        [vat (shrink n st.v vs) vg, vat (shrink n st.v vs) vh]) := rfl

theorem contract_eval (F : Pt → Rat) (n : Nat) (st : St) (vg vs vh : Nat) (vm vr : Pt) (fr : Rat) :
    evalWith F (contract n st vg vs vh vm vr fr) =
      if fr ≥ at' st.f vh then
        (if F (contractPt n st vg vm vr fr) < at' st.f vg then
          (replace st vg (contractPt n st vg vm vr fr) (F (contractPt n st vg vm vr fr)), [contractPt n st vg vm vr fr])
        else
          (⟨shrink n st.v vs, (st.f.set vg (F (vat (shrink n st.v vs) vg))).set vh (F (vat (shrink n st.v vs) vh))⟩,
            [contractPt n st vg vm vr fr, vat (shrink n st.v vs) vg, vat (shrink n st.v vs) vh]))
      else (st, []) := by
  unfold contract
  split
  · rw [eval_ask]
    split
    · simp [eval_done]
    · rw [shrinkStep_eval]
  · rfl

theorem expand_eval (F : Pt → Rat) (n : Nat) (st : St) (vg vs : Nat) (vm vr : Pt) (fr : Rat) :
    evalWith F (expand n st vg vs vm vr fr) =
      if fr < at' st.f vs then
        (if F (comb n vm 2 vr vm) < fr then replace st vg (comb n vm 2 vr vm) (F (comb n vm 2 vr vm)) else replace st vg vr fr,
          [comb n vm 2 vr vm])
      else (st, []) := by
  unfold expand
  split
  · rw [eval_ask, eval_done]
  · rfl

theorem iter_eval (F : Pt → Rat) (n : Nat) (st : St) :
    evalWith F (iter n st) =
      (let vg := largest st.f
       let vs := smallest st.f
       let vh := second st.f vs vg
       let vm := centroid n st.v vg
       let vr := comb n vm 1 vm (vat st.v vg)
       let e := evalWith F (expand n (accept st vg vs vh vr (F vr)) vg vs vm vr (F vr))
       let k := evalWith F (contract n e.1 vg vs vh vm vr (F vr))
       (k.1, vr :: (e.2 ++ k.2))) := by
  unfold iter
  rw [eval_ask, eval_bind]

theorem expand_length (F : Pt → Rat) (n : Nat) (st : St) (vg vs : Nat) (vm vr : Pt) (fr : Rat) :
    (evalWith F (expand n st vg vs vm vr fr)).2.length ≤ 1 := by
  rw [expand_eval]; split <;> simp

theorem contract_length (F : Pt → Rat) (n : Nat) (st : St) (vg vs vh : Nat) (vm vr : Pt) (fr : Rat) :
    (evalWith F (contract n st vg vs vh vm vr fr)).2.length ≤ 3 := by
  rw [contract_eval]
  split
  · split <;> simp
  · simp

theorem iter_length (F : Pt → Rat) (n : Nat) (st : St) : 1 ≤ (evalWith F (iter n st)).2.length ∧ (evalWith F (iter n st)).2.length ≤ 5 := by
  rw [iter_eval]
  simp only [List.length_cons, List.length_append]
  refine ⟨by omega, ?_⟩
  refine Nat.le_trans (Nat.add_le_add_right (Nat.add_le_add (expand_length F n _ _ _ _ _ _) (contract_length F n _ _ _ _ _ _ _)) 1) ?_
  omega

theorem loop_length (F : Pt → Rat) (n : Nat) (ftol : Rat) : ∀ (fuel itr : Nat) (st : St),
    (evalWith F (loop n ftol fuel itr st)).2.length ≤ 5 * fuel ∧
    (evalWith F (loop n ftol fuel itr st)).1.2 ≤ itr + fuel
  | 0, itr, st => by simp [loop, eval_done]
  | fuel + 1, itr, st => by
    have h1 := (iter_length F n st).2
    have ih := loop_length F n ftol fuel (itr + 1) (evalWith F (iter n st)).1
    rw [loop, eval_bind]
    simp only [List.length_append]
    split
    · simp only [eval_done, List.length_nil]; omega
    · omega

/-- **C189.** For every function the minimisation ends, after at least `n+2` and at most `n+2+5*MAX_IT` evaluations. -/
theorem C189_evaluations (F : Pt → Rat) (n : Nat) (ftol pn qn : Rat) (maxIt : Nat) (start : Pt) :
    n + 2 ≤ (evalWith F (simplex n ftol pn qn maxIt start)).2.length ∧
    (evalWith F (simplex n ftol pn qn maxIt start)).2.length ≤ n + 2 + 5 * maxIt := by
  unfold simplex
  rw [eval_bind, askAll_eval]
  simp only
  rw [eval_bind]
  simp only [eval_ask, eval_done, List.length_append, List.length_cons, List.length_nil, initial_length]
  have := (loop_length F n ftol maxIt 1 ⟨initial n pn qn start, (initial n pn qn start).map F⟩).1
  omega

end Thot.Dhs
