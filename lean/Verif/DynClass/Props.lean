import Verif.DynClass.Model
/-!
C279-C282: configuration of dynamic classes.
-/
namespace Thot.DynClass

open Thot
open Thot.Awk (fields)
open Thot.SentHandler (joinWords)
open Thot.Desc (nf fld linesOf)

/-! ### C279: specification -/

/-- What a line declares: a line with four words or more, the first without `#` at its beginning, declares the library of a class in its third
word, and the parameters from the fifth word, without the last word. -/
def declares (var lib l : Str) : Option (Str × Str × Str) :=
  match fields ' ' l with
  | c :: _ :: so :: _ :: ps =>
    if c.head? = some '#' then none
    else some (c, StrProc.expandLibDirIfFound var lib so, ps.dropLast.flatMap fun p => p ++ [' '])
  | _ => none

/-- The last declaration of a class. -/
def lastDecl (var lib : Str) (ls : List Str) (c : Str) : Option (Str × Str) :=
  ((ls.filterMap (declares var lib)).reverse.find? fun d => decide (d.1 = c)).map Prod.snd

/-! ### Proof -/

theorem fold_pars (F : Nat → Str) (N : Nat) : ∀ (n k : Nat) (acc : Str), n = 0 ∨ k + n ≤ N →
    (List.range' k n).foldl (fun acc i => acc ++ F i ++ (if i < N then [' '] else [])) acc =
      acc ++ ((List.range' k n).map F).flatMap fun p => p ++ [' '] := by
  intro n
  induction n with
  | zero => intro k acc _; simp
  | succ n ih =>
    intro k acc h
    rw [List.range'_succ, List.foldl_cons, ih (k + 1) _ (by omega), if_pos (by omega)]
    simp

theorem initPars_eq (l c x so y : Str) (ps : List Str) (h : fields ' ' l = c :: x :: so :: y :: ps) :
    initPars l = ps.dropLast.flatMap fun p => p ++ [' '] := by
  have hn : nf l = ps.length + 4 := by rw [Desc.nf_eq, h]; simp
  unfold initPars
  rw [hn, fold_pars (fld l) (ps.length + 4) _ 5 [] (by omega), List.nil_append]
  congr 1
  apply List.ext_getElem
  · simp
  · intro i h1 h2
    rw [List.length_dropLast] at h2
    rw [List.getElem_map, List.getElem_range', List.getElem_dropLast, show 5 + 1 * i = (i + 4) + 1 by omega, Desc.fld_eq, h]
    simp only [List.getElem?_cons_succ]
    rw [List.getElem?_eq_getElem (by omega)]; rfl

theorem comment_iff (c : Str) : isComment c = true ↔ c.head? = some '#' := by
  cases c with
  | nil => simp [isComment]
  | cons a c => simp [isComment]; intro h _; exact h

theorem iniLine_eq (var lib : Str) (m : Info) (l : Str) :
    iniLine var lib m l = match declares var lib l with | none => m | some d => AMap.put m d.1 d.2 := by
  unfold iniLine declares
  match h : fields ' ' l with
  | [] => rw [if_neg (by rw [Desc.nf_eq, h]; simp)]
  | [a] => rw [if_neg (by rw [Desc.nf_eq, h]; simp)]
  | [a, b] => rw [if_neg (by rw [Desc.nf_eq, h]; simp)]
  | [a, b, c] => rw [if_neg (by rw [Desc.nf_eq, h]; simp)]
  | c :: x :: so :: y :: ps =>
    rw [if_pos (by rw [Desc.nf_eq, h]; simp)]
    have h1 : fld l 1 = c := by rw [Desc.fld_eq, h]; rfl
    have h3 : fld l 3 = so := by rw [Desc.fld_eq, h]; rfl
    rw [h1, h3, initPars_eq l c x so y ps h]
    by_cases hc : c.head? = some '#'
    · rw [if_pos ((comment_iff c).2 hc)]; simp [hc]
    · rw [if_neg (fun h => hc ((comment_iff c).1 h))]; simp [hc]

theorem fold_ini (var lib : Str) : ∀ (ls : List Str) (m : Info) (c : Str),
    AMap.lk (ls.foldl (iniLine var lib) m) c = (lastDecl var lib ls c).or (AMap.lk m c) := by
  intro ls
  induction ls with
  | nil => intro m c; rfl
  | cons l ls ih =>
    intro m c
    rw [List.foldl_cons, ih, iniLine_eq]
    unfold lastDecl
    rw [List.filterMap_cons]
    cases declares var lib l with
    | none => rfl
    | some d =>
      dsimp only
      rw [List.reverse_cons, List.find?_append, AMap.lk_put]
      cases ((ls.filterMap (declares var lib)).reverse.find? fun d => decide (d.1 = c)) with
      | some e => rfl
      | none =>
        by_cases hd : d.1 = c
        · subst hd; simp
        · simp [hd, Ne.symm hd]

/-- **C279.** The file that can be read is loaded, and gives for each class the library and the parameters of its last declaration; nothing for
the classes that it does not declare. -/
theorem C279_ini (var lib : Str) (f : Option Str) :
    (f = none → load var lib f = none) ∧
    ∀ t, f = some t → ∃ m, load var lib f = some m ∧ ∀ c, getInfo m c = lastDecl var lib (linesOf t) c := by
  refine ⟨fun h => by rw [h]; rfl, ?_⟩
  rintro t rfl
  refine ⟨_, rfl, fun c => ?_⟩
  show AMap.lk _ c = _
  rw [fold_ini]
  cases lastDecl var lib (linesOf t) c <;> rfl

/-! ### C280: specification -/

/-- All the classes. -/
def all : List Cls := [.wordPen, .lm, .sw, .pm, .scorer, .wu, .mdata, .dec, .ecm, .ecNb, .wg, .assist]

/-- The number of classes that have the library open. -/
def users (s : St) (m : Str) : Nat := all.countP fun c => decide ((s.ld c).handle = some m)

/-! ### Invariant -/

theorem mem_all (c : Cls) : c ∈ all := by cases c <;> decide

structure Inv (s : St) : Prop where
  refs : ∀ m, s.refs m = users s m
  create : ∀ c, (s.ld c).create = (s.ld c).handle

def ind (l : Loader) (m : Str) : Nat := if l.handle = some m then 1 else 0

theorem count_upd (f : Cls → Loader) (c : Cls) (l : Loader) (m : Str) : ∀ (cs : List Cls), cs.Nodup → c ∈ cs →
    cs.countP (fun x => decide ((upd f c l x).handle = some m)) + ind (f c) m = cs.countP (fun x => decide ((f x).handle = some m)) + ind l m := by
  intro cs
  induction cs with
  | nil => intro _ h; cases h
  | cons x cs ih =>
    intro hn hm
    obtain ⟨h1, h2⟩ := List.nodup_cons.1 hn
    rw [List.countP_cons, List.countP_cons]
    by_cases hx : x = c
    · subst hx
      have : cs.countP (fun y => decide ((upd f x l y).handle = some m)) = cs.countP (fun y => decide ((f y).handle = some m)) := by
        apply List.countP_congr
        intro y hy
        have : y ≠ x := fun h => h1 (h ▸ hy)
        simp [upd, this]
      rw [this]
      unfold ind
      simp only [upd, if_true, decide_eq_true_eq]
      omega
    · have hm' : c ∈ cs := by
        rcases List.mem_cons.1 hm with h | h
        · exact absurd h.symm hx
        · exact h
      have := ih h2 hm'
      have hu : upd f c l x = f x := by simp [upd, hx]
      rw [hu]; omega

theorem nodup_all : all.Nodup := by decide

theorem users_upd (s s' : St) (c : Cls) (l : Loader) (h : s'.ld = upd s.ld c l) (m : Str) :
    users s' m + ind (s.ld c) m = users s m + ind l m := by
  unfold users; rw [h]; exact count_upd s.ld c l m all nodup_all (mem_all c)

theorem users_pos (s : St) (c : Cls) (m : Str) (h : (s.ld c).handle = some m) : 0 < users s m := by
  unfold users
  rw [List.countP_pos_iff]
  exact ⟨c, mem_all c, by simpa using h⟩

/-- What `close_module` does. -/
theorem close_spec (r : Refs) (l : Loader) :
    (closeModule (r, l)).2.handle = none ∧ (closeModule (r, l)).2.create = none ∧
    ∀ m, (closeModule (r, l)).1 m = r m - ind l m := by
  unfold closeModule
  cases h : l.handle with
  | none => simp only [h]; refine ⟨trivial, trivial, fun m => ?_⟩; simp [ind, h]
  | some x =>
    refine ⟨rfl, rfl, fun m => ?_⟩
    simp only [decr, ind, h, Option.some.injEq]
    by_cases hm : m = x
    · simp [hm]
    · simp [hm, Ne.symm hm]

theorem close_inv {s : St} (h : Inv s) (c : Cls) : Inv (closeCls s c) := by
  obtain ⟨h1, h2, h3⟩ := close_spec s.refs (s.ld c)
  constructor
  · intro m
    have hu := users_upd s (closeCls s c) c _ rfl m
    have hi : ind (closeModule (s.refs, s.ld c)).2 m = 0 := by unfold ind; rw [h1]; simp
    rw [hi] at hu
    show (closeModule (s.refs, s.ld c)).1 m = _
    rw [h3, h.refs]; omega
  · intro x
    show (upd s.ld c _ x).create = (upd s.ld c _ x).handle
    unfold upd
    split
    · rw [h1, h2]
    · exact h.create x

theorem close_list {cs : List Cls} : ∀ {s : St}, Inv s →
    Inv (cs.foldl closeCls s) ∧ (∀ c ∈ cs, ((cs.foldl closeCls s).ld c).handle = none) ∧
    (∀ c, c ∉ cs → (cs.foldl closeCls s).ld c = s.ld c) ∧ (cs.foldl closeCls s).info = s.info ∧ (cs.foldl closeCls s).pars = s.pars := by
  induction cs with
  | nil => intro s h; exact ⟨h, fun c hc => (by cases hc), fun _ _ => rfl, rfl, rfl⟩
  | cons x cs ih =>
    intro s h
    obtain ⟨h1, h2, h3, h4, h5⟩ := ih (close_inv h x)
    rw [List.foldl_cons]
    refine ⟨h1, ?_, ?_, h4, h5⟩
    · intro c hc
      by_cases hm : c ∈ cs
      · exact h2 c hm
      · have hx : c = x := by
          rcases List.mem_cons.1 hc with h | h
          · exact h
          · exact absurd h hm
        rw [h3 c hm, hx]
        show (upd s.ld x _ x).handle = none
        unfold upd; rw [if_pos rfl]
        exact (close_spec _ _).1
    · intro c hc
      rw [h3 c (fun h => hc (List.mem_cons_of_mem _ h))]
      show upd s.ld x _ c = _
      unfold upd; rw [if_neg (show ¬ c = x from fun h => hc (by rw [h]; exact List.mem_cons_self))]

/-- What `open_module` does. -/
theorem open_spec (dl : Dl) (so : Str) (r : Refs) (l : Loader) :
    ((openModule dl so (r, l)).2 = true ↔ dl so = some (true, true)) ∧
    (openModule dl so (r, l)).1.2.create = (openModule dl so (r, l)).1.2.handle ∧
    (openModule dl so (r, l)).1.2.handle = (if dl so = some (true, true) then some so else none) ∧
    (∀ m, (openModule dl so (r, l)).1.1 m = r m - ind l m + ind (openModule dl so (r, l)).1.2 m) := by
  obtain ⟨h1, h2, h3⟩ := close_spec r l
  have hinc : ∀ x : Refs × Loader, ∀ m, (closeModule (incr x.1 so, { x.2 with handle := some so })).1 m = x.1 m := by
    intro x m
    rw [(close_spec _ _).2.2 m]
    simp only [ind, incr, Option.some.injEq]
    by_cases hm : m = so
    · simp [hm]
    · simp [hm, Ne.symm hm]
  unfold openModule
  match hd : dl so with
  | none => simp [h1, h2, h3, ind]
  | some (false, b) =>
    have e := close_spec (incr (closeModule (r, l)).1 so) { (closeModule (r, l)).2 with handle := some so }
    simp only [Bool.false_eq_true, if_false]
    refine ⟨by simp, by rw [e.1, e.2.1], by rw [e.1]; simp, fun m => ?_⟩
    rw [hinc, h3]; simp only [ind, e.1]; simp
  | some (true, false) =>
    have e := close_spec (incr (closeModule (r, l)).1 so) { (closeModule (r, l)).2 with handle := some so, create := some so, tid := .null }
    simp only [Bool.false_eq_true, if_false, if_true]
    refine ⟨by simp, by rw [e.1, e.2.1], by rw [e.1]; simp, fun m => ?_⟩
    rw [e.2.2 m]
    simp only [ind, e.1, incr, h3, Option.some.injEq]
    by_cases hm : m = so
    · simp [hm]
    · simp [hm, Ne.symm hm]
  | some (true, true) =>
    simp only [if_true]
    refine ⟨by simp, by simp, by simp, fun m => ?_⟩
    simp only [incr, ind, h3, Option.some.injEq]
    by_cases hm : m = so
    · simp [hm]
    · simp [hm, Ne.symm hm]

/-- The class has an entry, and its library can be opened and has both functions. -/
def Usable (dl : Dl) (m : Info) (c : Cls) : Prop := ∃ so p, getInfo m c.name = some (so, p) ∧ dl so = some (true, true)

theorem initCls_none (dl : Dl) (s : St) (c : Cls) (hg : getInfo s.info c.name = none) : initCls dl s c = (s, false) := by
  unfold initCls; rw [hg]

theorem initCls_ok (dl : Dl) (s : St) (c : Cls) (so p : Str) (hg : getInfo s.info c.name = some (so, p))
    (hr : (openModule dl so (s.refs, s.ld c)).2 = true) : initCls dl s c =
      (St.mk s.info (upd s.ld c (openModule dl so (s.refs, s.ld c)).1.2) (if storesPars c then upd s.pars c p else s.pars)
        (openModule dl so (s.refs, s.ld c)).1.1, true) := by
  unfold initCls; rw [hg]
  dsimp only
  rw [if_pos hr]
  cases storesPars c <;> rfl

theorem initCls_bad (dl : Dl) (s : St) (c : Cls) (so p : Str) (hg : getInfo s.info c.name = some (so, p))
    (hr : ¬ (openModule dl so (s.refs, s.ld c)).2 = true) : initCls dl s c =
      (St.mk s.info (upd s.ld c (openModule dl so (s.refs, s.ld c)).1.2) s.pars (openModule dl so (s.refs, s.ld c)).1.1, false) := by
  unfold initCls; rw [hg]
  dsimp only
  rw [if_neg hr]

theorem initCls_spec (dl : Dl) {s : St} (h : Inv s) (c : Cls) :
    Inv (initCls dl s c).1 ∧ (initCls dl s c).1.info = s.info ∧ (∀ x, x ≠ c → (initCls dl s c).1.ld x = s.ld x) ∧
    (∀ x, x ≠ c → (initCls dl s c).1.pars x = s.pars x) ∧
    ((initCls dl s c).2 = true ↔ Usable dl s.info c) ∧
    ((initCls dl s c).2 = true → ∀ so p, getInfo s.info c.name = some (so, p) →
      ((initCls dl s c).1.ld c).handle = some so ∧ (storesPars c = true → (initCls dl s c).1.pars c = p)) ∧
    ((initCls dl s c).2 = false → ((initCls dl s c).1.ld c).handle = none ∨ (initCls dl s c).1.ld c = s.ld c) := by
  cases hg : getInfo s.info c.name with
  | none =>
    rw [initCls_none dl s c hg]
    refine ⟨h, rfl, fun _ _ => rfl, fun _ _ => rfl, ?_, (by intro h; cases h), fun _ => Or.inr rfl⟩
    constructor
    · intro h; cases h
    · rintro ⟨so, p, h1, _⟩; rw [hg] at h1; cases h1
  | some sp =>
    obtain ⟨so, p⟩ := sp
    obtain ⟨h1, h2, h3, h4⟩ := open_spec dl so s.refs (s.ld c)
    have hinv : ∀ q, Inv (St.mk s.info (upd s.ld c (openModule dl so (s.refs, s.ld c)).1.2) q
        (openModule dl so (s.refs, s.ld c)).1.1) := by
      intro q
      constructor
      · intro m
        have hu := users_upd s (St.mk s.info (upd s.ld c (openModule dl so (s.refs, s.ld c)).1.2) q
          (openModule dl so (s.refs, s.ld c)).1.1) c _ rfl m
        show (openModule dl so (s.refs, s.ld c)).1.1 m = _
        rw [h4, h.refs]
        have hp : ind (s.ld c) m ≤ users s m := by
          unfold ind
          split
          · exact users_pos s c m (by assumption)
          · omega
        omega
      · intro x
        show (upd s.ld c _ x).create = (upd s.ld c _ x).handle
        unfold upd
        split
        · exact h2
        · exact h.create x
    by_cases hr : (openModule dl so (s.refs, s.ld c)).2 = true
    · have hd := h1.1 hr
      rw [initCls_ok dl s c so p hg hr]
      refine ⟨hinv _, rfl, ?_, ?_, ?_, ?_, (by intro h; cases h)⟩
      · intro x hx; simp [upd, hx]
      · intro x hx; dsimp only; split <;> simp [upd, hx]
      · exact ⟨fun _ => ⟨so, p, hg, hd⟩, fun _ => rfl⟩
      · intro _ so' p' hg'
        cases hg'
        refine ⟨?_, ?_⟩
        · simp [upd, h3, hd]
        · intro hs; dsimp only; rw [if_pos hs]; simp [upd]
    · have hd : dl so ≠ some (true, true) := fun h => hr (h1.2 h)
      rw [initCls_bad dl s c so p hg hr]
      refine ⟨hinv _, rfl, ?_, fun _ _ => rfl, ?_, (by intro h; cases h), fun _ => Or.inl ?_⟩
      · intro x hx; simp [upd, hx]
      · constructor
        · intro h; cases h
        · rintro ⟨so', p', h5, h6⟩
          rw [hg] at h5; cases h5; exact absurd h6 hd
      · simp [upd, h3, hd]

/-- What the blocks of a list of classes do. -/
theorem initList_spec (dl : Dl) : ∀ (cs : List Cls) {s : St}, cs.Nodup → Inv s →
    Inv (initList dl cs s).1 ∧ (initList dl cs s).1.info = s.info ∧ (∀ x, x ∉ cs → (initList dl cs s).1.ld x = s.ld x) ∧
    (∀ x, x ∉ cs → (initList dl cs s).1.pars x = s.pars x) ∧
    ((initList dl cs s).2 = true ↔ ∀ c ∈ cs, Usable dl s.info c) ∧
    ((initList dl cs s).2 = true → ∀ c ∈ cs, ∀ so p, getInfo s.info c.name = some (so, p) →
      ((initList dl cs s).1.ld c).handle = some so ∧ (storesPars c = true → (initList dl cs s).1.pars c = p)) ∧
    ((initList dl cs s).2 = false → ∃ pre c post, cs = pre ++ c :: post ∧ (∀ x ∈ pre, Usable dl s.info x) ∧ ¬ Usable dl s.info c ∧
      (∀ x ∈ pre, ∀ so p, getInfo s.info x.name = some (so, p) → ((initList dl cs s).1.ld x).handle = some so) ∧
      (((initList dl cs s).1.ld c).handle = none ∨ (initList dl cs s).1.ld c = s.ld c) ∧ ∀ x ∈ post, (initList dl cs s).1.ld x = s.ld x) := by
  intro cs
  induction cs with
  | nil =>
    intro s _ h
    refine ⟨h, rfl, fun _ _ => rfl, fun _ _ => rfl, ?_, (by intro _ c hc; cases hc), (by intro h; cases h)⟩
    exact ⟨fun _ c hc => (by cases hc), fun _ => rfl⟩
  | cons c cs ih =>
    intro s hn h
    obtain ⟨hc, hn'⟩ := List.nodup_cons.1 hn
    obtain ⟨a1, a2, a3, a4, a5, a6, a7⟩ := initCls_spec dl h c
    by_cases hr : (initCls dl s c).2 = true
    · obtain ⟨b1, b2, b3, b4, b5, b6, b7⟩ := ih hn' a1
      have e : initList dl (c :: cs) s = initList dl cs (initCls dl s c).1 := by
        show (if (initCls dl s c).2 = true then _ else _) = _
        rw [if_pos hr]
      rw [e]
      rw [a2] at b2 b5 b6 b7
      refine ⟨b1, b2, ?_, ?_, ?_, ?_, ?_⟩
      · intro x hx
        rw [b3 x (fun h => hx (List.mem_cons_of_mem _ h)), a3 x (fun h => hx (h ▸ List.mem_cons_self))]
      · intro x hx
        rw [b4 x (fun h => hx (List.mem_cons_of_mem _ h)), a4 x (fun h => hx (h ▸ List.mem_cons_self))]
      · rw [b5]
        constructor
        · intro hh x hx
          rcases List.mem_cons.1 hx with rfl | hx
          · exact a5.1 hr
          · exact hh x hx
        · intro hh x hx; exact hh x (List.mem_cons_of_mem _ hx)
      · intro hh x hx so p hg
        rcases List.mem_cons.1 hx with rfl | hx
        · rw [b3 x hc, b4 x hc]; exact a6 hr so p hg
        · exact b6 hh x hx so p hg
      · intro hh
        obtain ⟨pre, d, post, c1, c2, c3, c4, c5, c6⟩ := b7 hh
        have hdc : d ≠ c := by rintro rfl; exact hc (by rw [c1]; simp)
        refine ⟨c :: pre, d, post, by rw [c1]; rfl, ?_, c3, ?_, ?_, ?_⟩
        · intro x hx
          rcases List.mem_cons.1 hx with rfl | hx
          · exact a5.1 hr
          · exact c2 x hx
        · intro x hx so p hg
          rcases List.mem_cons.1 hx with rfl | hx
          · rw [b3 x hc]; exact (a6 hr so p hg).1
          · exact c4 x hx so p hg
        · rcases c5 with c5 | c5
          · exact Or.inl c5
          · right; rw [c5, a3 d hdc]
        · intro x hx
          have : x ≠ c := by rintro rfl; exact hc (by rw [c1]; simp [hx])
          rw [c6 x hx, a3 x this]
    · have hf : (initCls dl s c).2 = false := by simpa using hr
      have e : initList dl (c :: cs) s = initCls dl s c := by
        show (if (initCls dl s c).2 = true then _ else _) = _
        rw [if_neg hr]
      rw [e]
      have hu : ¬ Usable dl s.info c := fun hh => hr (a5.2 hh)
      refine ⟨a1, a2, ?_, ?_, ?_, ?_, ?_⟩
      · intro x hx; exact a3 x (fun h => hx (h ▸ List.mem_cons_self))
      · intro x hx; exact a4 x (fun h => hx (h ▸ List.mem_cons_self))
      · constructor
        · intro hh; exact absurd hh hr
        · intro hh; exact absurd (hh c List.mem_cons_self) hu
      · intro hh; exact absurd hh hr
      · intro _
        refine ⟨[], c, cs, rfl, fun x hx => (by cases hx), hu, fun x hx => (by cases hx), a7 hf, ?_⟩
        intro x hx
        exact a3 x (by rintro rfl; exact hc hx)

theorem inv_info {s : St} (h : Inv s) (m : Info) : Inv { s with info := m } := ⟨h.refs, h.create⟩

theorem initSmt_inv (var lib : Str) (dl : Dl) (f : Option Str) {s : St} (h : Inv s) : Inv (initSmt var lib dl f s).1 := by
  have h0 : Inv (releaseSmt s) := (close_list (cs := smt) h).1
  unfold initSmt
  cases load var lib f with
  | none => exact h0
  | some m => exact (initList_spec dl smt (by decide) (inv_info h0 m)).1

theorem initAll_inv (var lib : Str) (dl : Dl) (f : Option Str) {s : St} (h : Inv s) : Inv (initAll var lib dl f s).1 := by
  unfold initAll
  dsimp only
  split
  · exact (initList_spec dl imt (by decide) (initSmt_inv var lib dl f h)).1
  · exact initSmt_inv var lib dl f h

theorem start_inv : Inv St.start := ⟨fun m => by simp [St.start, users, Loader.new], fun c => rfl⟩

theorem run_inv (var lib : Str) (ops : List Op) : Inv (run var lib ops) := by
  have gen : ∀ (ops : List Op) (s : St), Inv s → Inv (ops.foldl (step var lib) s) := by
    intro ops
    induction ops with
    | nil => intro s h; exact h
    | cons o ops ih =>
      intro s h
      rw [List.foldl_cons]
      apply ih
      cases o with
      | initSmt dl f => exact initSmt_inv var lib dl f h
      | initAll dl f => exact initAll_inv var lib dl f h
      | releaseSmt => exact (close_list (cs := smt) h).1
      | releaseAll => exact (close_list (cs := imt) (close_list (cs := smt) h).1).1
  exact gen ops _ start_inv

/-- **C280.** For every history of a handler (with any files and libraries): every library is open as many times as there are classes that use it,
so none is left open; `make_obj` gives objects of the library that is open, and none if there is none; after `release_smt` the eight classes have
none, and after `release_smt_and_imt` no library is open. -/
theorem C280_modules (var lib : Str) (ops : List Op) :
    (∀ m, (run var lib ops).refs m = users (run var lib ops) m) ∧
    (∀ c, makeObj ((run var lib ops).ld c) = ((run var lib ops).ld c).handle) ∧
    (∀ c ∈ smt, makeObj ((run var lib (ops ++ [.releaseSmt])).ld c) = none) ∧
    (∀ m, (run var lib (ops ++ [.releaseAll])).refs m = 0) ∧
    (∀ c, makeObj ((run var lib (ops ++ [.releaseAll])).ld c) = none) := by
  have h := run_inv var lib ops
  have e : ∀ o, run var lib (ops ++ [o]) = step var lib (run var lib ops) o := by
    intro o; unfold run; rw [List.foldl_append]; rfl
  obtain ⟨a1, a2, a3, _⟩ := close_list (cs := smt) h
  obtain ⟨b1, b2, b3, _⟩ := close_list (cs := imt) a1
  have hnone : ∀ c, ((releaseAll (run var lib ops)).ld c).handle = none := by
    intro c
    by_cases hc : c ∈ imt
    · exact b2 c hc
    · rw [show (releaseAll (run var lib ops)).ld c = _ from b3 c hc]
      apply a2
      revert hc; cases c <;> decide
  refine ⟨h.refs, h.create, ?_, ?_, ?_⟩
  · intro c hc
    rw [e]
    exact (a1.create c).trans (a2 c hc)
  · intro m
    rw [e]
    show (releaseAll _).refs m = 0
    rw [show (releaseAll (run var lib ops)).refs m = _ from b1.refs m]
    unfold users
    rw [List.countP_eq_zero]
    intro c _
    have := hnone c
    simp only [decide_eq_true_eq]
    intro hh
    rw [show (List.foldl closeCls (List.foldl closeCls (run var lib ops) smt) imt) = releaseAll (run var lib ops) from rfl, this] at hh
    cases hh
  · intro c
    rw [e]
    exact (b1.create c).trans (hnone c)

/-! ### C281 -/

/-- The initialisation of all the classes is right: it succeeds exactly if the file can be read, declares every class and their libraries can be
used; then each class creates objects with the library of the file, and its parameters (for the classes in `stored`) are those of the file. -/
def InitOk (stored : Cls → Prop) (var lib : Str) (dl : Dl) (f : Option Str) (s : St) : Prop :=
  ((initAll var lib dl f s).2 = true ↔
    ∃ t, f = some t ∧ ∀ c : Cls, ∃ so p, lastDecl var lib (linesOf t) c.name = some (so, p) ∧ dl so = some (true, true)) ∧
  ((initAll var lib dl f s).2 = true → ∀ t, f = some t → ∀ c : Cls, ∀ so p, lastDecl var lib (linesOf t) c.name = some (so, p) →
    makeObj ((initAll var lib dl f s).1.ld c) = some so ∧ (stored c → (initAll var lib dl f s).1.pars c = p))

/-- C281, full statement: the parameters of all the classes are those of the file. -/
def C281_full : Prop := ∀ (var lib : Str) (ops : List Op) (dl : Dl) (f : Option Str), InitOk (fun _ => True) var lib dl f (run var lib ops)

theorem cls_split (c : Cls) : c ∈ smt ∨ c ∈ imt := by cases c <;> decide

/-- **C281, partial.** For every history before it, except for the parameters of the scorer. -/
theorem C281_init_partial (var lib : Str) (ops : List Op) (dl : Dl) (f : Option Str) :
    InitOk (fun c => c ≠ .scorer) var lib dl f (run var lib ops) := by
  have h := run_inv var lib ops
  generalize run var lib ops = s at h
  have h0 : Inv (releaseSmt s) := (close_list (cs := smt) h).1
  obtain ⟨l0, l1⟩ := C279_ini var lib f
  cases f with
  | none =>
    have e : initAll var lib dl none s = (releaseSmt s, false) := rfl
    unfold InitOk
    rw [e]
    exact ⟨⟨(by intro h; cases h), (by rintro ⟨t, ht, _⟩; cases ht)⟩, (by intro h; cases h)⟩
  | some t =>
    obtain ⟨m, hm, hl⟩ := l1 t rfl
    obtain ⟨a1, a2, a3, a4, a5, a6, a7⟩ := initList_spec dl smt (by decide) (inv_info h0 m)
    have e1 : initSmt var lib dl (some t) s = initList dl smt { releaseSmt s with info := m } := by
      unfold initSmt; rw [hm]
    have hus : ∀ c, Usable dl m c ↔ ∃ so p, lastDecl var lib (linesOf t) c.name = some (so, p) ∧ dl so = some (true, true) := by
      intro c; unfold Usable; rw [hl]
    unfold InitOk initAll
    rw [e1]
    dsimp only
    by_cases hr : (initList dl smt { releaseSmt s with info := m }).2 = true
    · rw [if_pos hr]
      obtain ⟨b1, b2, b3, b4, b5, b6, b7⟩ := initList_spec dl imt (by decide) a1
      rw [a2] at b2 b5 b6
      refine ⟨?_, ?_⟩
      · rw [b5]
        constructor
        · intro hh
          refine ⟨t, rfl, fun c => (hus c).1 ?_⟩
          rcases cls_split c with hc | hc
          · exact a5.1 hr c hc
          · exact hh c hc
        · rintro ⟨t', ht, hh⟩ c _
          cases ht
          exact (hus c).2 (hh c)
      · intro hh t' ht c so p hd
        cases ht
        rw [← hl] at hd
        have hsp : c ≠ .scorer → storesPars c = true := by intro h; cases c <;> first | rfl | exact absurd rfl h
        rcases cls_split c with hc | hc
        · have hni : c ∉ imt := by revert hc; cases c <;> decide
          obtain ⟨c1, c2⟩ := a6 hr c hc so p hd
          refine ⟨(b1.create c).trans ?_, fun hs => ?_⟩
          · rw [b3 c hni]; exact c1
          · rw [b4 c hni]; exact c2 (hsp hs)
        · obtain ⟨c1, c2⟩ := b6 hh c hc so p hd
          exact ⟨(b1.create c).trans c1, fun hs => c2 (hsp hs)⟩
    · rw [if_neg hr]
      refine ⟨⟨fun hh => absurd hh hr, ?_⟩, fun hh => absurd hh hr⟩
      rintro ⟨t', ht, hh⟩
      cases ht
      exact absurd (a5.2 fun c _ => (hus c).2 (hh c)) hr

/-! ### C282 -/

/-- C282, full statement: an initialisation that fails leaves no library open. -/
def C282_full : Prop := ∀ (var lib : Str) (ops : List Op) (dl : Dl) (f : Option Str),
  (initSmt var lib dl f (run var lib (ops ++ [.releaseAll]))).2 = false →
    ∀ m, (initSmt var lib dl f (run var lib (ops ++ [.releaseAll]))).1.refs m = 0

/-- **C282, partial.** For every history before a release: if `init_smt` fails, the file could not be read (and no library is open), or a class cannot be
used and the libraries that are open are those of the classes before it. -/
theorem C282_failed_partial (var lib : Str) (ops : List Op) (dl : Dl) (f : Option Str)
    (h : (initSmt var lib dl f (run var lib (ops ++ [.releaseAll]))).2 = false) :
    (f = none ∧ ∀ c, ((initSmt var lib dl f (run var lib (ops ++ [.releaseAll]))).1.ld c).handle = none) ∨
    ∃ t pre c post, f = some t ∧ smt = pre ++ c :: post ∧
      (¬ ∃ so p, lastDecl var lib (linesOf t) c.name = some (so, p) ∧ dl so = some (true, true)) ∧
      (∀ x ∈ pre, ∃ so p, lastDecl var lib (linesOf t) x.name = some (so, p) ∧
        ((initSmt var lib dl f (run var lib (ops ++ [.releaseAll]))).1.ld x).handle = some so) ∧
      ∀ x, x ∉ pre → ((initSmt var lib dl f (run var lib (ops ++ [.releaseAll]))).1.ld x).handle = none := by
  obtain ⟨_, hc, _, _, hnone⟩ := C280_modules var lib ops
  have hi := run_inv var lib (ops ++ [.releaseAll])
  generalize run var lib (ops ++ [.releaseAll]) = s at *
  have hn : ∀ c, (s.ld c).handle = none := fun c => (hi.create c).symm.trans (hnone c)
  obtain ⟨hh0, hz1, hz2, _⟩ := close_list (cs := smt) hi
  have h0 : Inv (releaseSmt s) := hh0
  have hn0 : ∀ c, ((releaseSmt s).ld c).handle = none := by
    intro c
    by_cases hcs : c ∈ smt
    · exact hz1 c hcs
    · rw [show (releaseSmt s).ld c = _ from hz2 c hcs]; exact hn c
  obtain ⟨_, l1⟩ := C279_ini var lib f
  cases f with
  | none => exact Or.inl ⟨rfl, hn0⟩
  | some t =>
    right
    obtain ⟨m, hm, hl⟩ := l1 t rfl
    obtain ⟨a1, a2, a3, a4, a5, a6, a7⟩ := initList_spec dl smt (by decide) (inv_info h0 m)
    have e1 : initSmt var lib dl (some t) s = initList dl smt { releaseSmt s with info := m } := by
      unfold initSmt; rw [hm]
    rw [e1] at h ⊢
    obtain ⟨pre, c, post, c1, c2, c3, c4, c5, c6⟩ := a7 h
    refine ⟨t, pre, c, post, rfl, c1, ?_, ?_, ?_⟩
    · rw [← hl]; exact c3
    · intro x hx
      obtain ⟨so, p, h1, h2⟩ := c2 x hx
      exact ⟨so, p, by rw [← hl]; exact h1, c4 x hx so p h1⟩
    · intro x hx
      by_cases hxs : x ∈ smt
      · rw [c1] at hxs
        simp only [List.mem_append, List.mem_cons] at hxs
        rcases hxs with hxs | rfl | hxs
        · exact absurd hxs hx
        · rcases c5 with c5 | c5
          · exact c5
          · rw [c5]; exact hn0 x
        · rw [c6 x hxs]; exact hn0 x
      · rw [a3 x hxs]; exact hn0 x

/-! ### Counterexamples and non-vacuity -/

/-- Every library can be used. -/
def goodDl : Dl := fun _ => some (true, true)

/-- A file that declares every class, the scorer with a parameter. -/
def exIni : Str := ("BaseWordPenaltyModel ; a ;\nBaseNgramLM ; a ;\nBaseSwAligModel ; a ;\nBasePhraseModel ; b ;\nBaseScorer ; a ; x ;\n" ++
  "BaseLogLinWeightUpdater ; a ;\nBaseTranslationMetadata ; a ;\nBaseStackDecoder ; a ; y z ;\nBaseErrorCorrectionModel ; a ;\n" ++
  "# comment in a file\nBaseEcModelForNbUcat ; a ;\nBaseWgProcessorForAnlp ; a ;\nBaseAssistedTrans ; a ;\n").toList

/-- What the file declares. -/
def exInfo : Info := [(Cls.wordPen.name, ['a'], []), (Cls.lm.name, ['a'], []), (Cls.sw.name, ['a'], []), (Cls.pm.name, ['b'], []),
  (Cls.scorer.name, ['a'], ['x', ' ']), (Cls.wu.name, ['a'], []), (Cls.mdata.name, ['a'], []), (Cls.dec.name, ['a'], ['y', ' ', 'z', ' ']),
  (Cls.ecm.name, ['a'], []), (Cls.ecNb.name, ['a'], []), (Cls.wg.name, ['a'], []), (Cls.assist.name, ['a'], [])]

theorem exIni_load : load [] [] (some exIni) = some exInfo := by decide +kernel

/-- The state after the initialisation. -/
def exAfter : St × Bool :=
  let r := initList goodDl smt { releaseSmt St.start with info := exInfo }
  if r.2 then initList goodDl imt r.1 else r

theorem exIni_after : initAll [] [] goodDl (some exIni) St.start = exAfter := by
  unfold initAll initSmt
  rw [exIni_load]; rfl

theorem exIni_ok : (initAll [] [] goodDl (some exIni) St.start).2 = true := by rw [exIni_after]; decide +kernel

theorem exIni_decl : lastDecl [] [] (linesOf exIni) Cls.scorer.name = some (['a'], ['x', ' ']) := by
  obtain ⟨m, h1, h2⟩ := (C279_ini [] [] (some exIni)).2 exIni rfl
  rw [exIni_load] at h1
  cases h1
  rw [← h2]; decide +kernel

theorem exIni_pars : (initAll [] [] goodDl (some exIni) St.start).1.pars .scorer = [] := by rw [exIni_after]; decide +kernel

/-- The parameters of the scorer are not stored. -/
theorem C281_counterexample : ¬ C281_full := by
  intro h
  have h1 := (h [] [] [] goodDl (some exIni)).2 exIni_ok exIni rfl .scorer _ _ exIni_decl
  have h2 := h1.2 trivial
  rw [show run [] [] [] = St.start from rfl, exIni_pars] at h2
  cases h2

/-- A file with one class. -/
def exShort : Str := "BaseWordPenaltyModel ; a ;\n".toList

theorem exShort_fails : (initSmt [] [] goodDl (some exShort) (run [] [] [.releaseAll])).2 = false := by decide +kernel

theorem exShort_open : (initSmt [] [] goodDl (some exShort) (run [] [] [.releaseAll])).1.refs "a".toList = 1 := by decide +kernel

/-- The libraries of the classes before the failure stay open. -/
theorem C282_counterexample : ¬ C282_full := by
  intro h
  have := h [] [] [] goodDl (some exShort) exShort_fails "a".toList
  have h2 := exShort_open
  rw [show ([] : List Op) ++ [.releaseAll] = [.releaseAll] from rfl] at this
  rw [this] at h2
  cases h2

example : (initAll [] [] goodDl (some exIni) St.start).1.pars .dec = "y z ".toList := by rw [exIni_after]; decide +kernel
example : (initAll [] [] goodDl (some exIni) St.start).1.refs ['a'] = 11 := by rw [exIni_after]; decide +kernel

end Thot.DynClass
