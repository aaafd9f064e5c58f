import Verif.Desc.Props
import Verif.Common.AMap
/-!
Model of the configuration of dynamic classes: `/repo/src/nlp_common/DynClassFileHandler.cc`, `/repo/src/nlp_common/SimpleDynClassLoader.h`,
`/repo/src/stack_dec/DynClassFactoryHandler.cc`.

A library is its file name. What `dlopen` and `dlsym` do with it is a parameter. `dlclose` of an open library always succeeds.
-/
namespace Thot.DynClass

open Thot
open Thot.Desc (nf fld linesOf)

abbrev Str := List Char

/-! ### DynClassFileHandler -/

/-- `dynClassInfoMap`: base class, library and initialisation parameters. -/
abbrev Info := List (Str × Str × Str)

/-- The test of a comment (DynClassFileHandler.cc:56-67). -/
def isComment (first : Str) : Bool :=
  match first with
  | [] => false
  | c :: cs => decide (c :: cs = ['#']) || decide (c = '#')

/-- The initialisation parameters of a line (DynClassFileHandler.cc:75-81). -/
def initPars (l : Str) : Str :=
  (List.range' 5 (nf l - 5)).foldl (fun acc i => acc ++ fld l i ++ (if i < nf l then [' '] else [])) []

/-- A line of the file (DynClassFileHandler.cc:54-86). -/
def iniLine (var lib : Str) (m : Info) (l : Str) : Info :=
  if nf l ≥ 4 then
    if isComment (fld l 1) then m
    else AMap.put m (fld l 1) (StrProc.expandLibDirIfFound var lib (fld l 3), initPars l)
  else m

/-- `load` (DynClassFileHandler.cc:33-91); `none` is THOT_ERROR, and the map is as it was. -/
def load (var lib : Str) (f : Option Str) : Option Info := f.map fun t => (linesOf t).foldl (iniLine var lib) []

/-- `getInfoForBaseClass` (DynClassFileHandler.cc:94-110). -/
def getInfo (m : Info) (cls : Str) : Option (Str × Str) := AMap.lk m cls

/-! ### SimpleDynClassLoader -/

/-- `type_id`: not initialised by the constructor, null, or the function of a library. -/
inductive TypeId where
  | uninit
  | null
  | fn (lib : Str)
  deriving DecidableEq

/-- `dll_handle`, `create`, `type_id` (each by the library where it points to) and `module_name` (SimpleDynClassLoader.h:43-49). -/
structure Loader where
  handle : Option Str
  create : Option Str
  tid : TypeId
  name : Str
  deriving DecidableEq

/-- Times that the libraries are open for the system. -/
abbrev Refs := Str → Nat

/-- What `dlopen` and the two `dlsym` give: `none` if the library cannot be opened, otherwise whether it has `create` and `type_id`. -/
abbrev Dl := Str → Option (Bool × Bool)

def incr (r : Refs) (m : Str) : Refs := fun x => if x = m then r x + 1 else r x
def decr (r : Refs) (m : Str) : Refs := fun x => if x = m then r x - 1 else r x

/-- The constructor (SimpleDynClassLoader.h:54-59). -/
def Loader.new : Loader := ⟨none, none, .uninit, []⟩

/-- `close_module` (SimpleDynClassLoader.h:61-83). -/
def closeModule (x : Refs × Loader) : Refs × Loader :=
  match x.2.handle with
  | none => (x.1, { x.2 with create := none, name := [] })
  | some m => (decr x.1 m, { x.2 with create := none, handle := none, name := [] })

/-- `open_module` (SimpleDynClassLoader.h:85-137). -/
def openModule (dl : Dl) (m : Str) (x : Refs × Loader) : (Refs × Loader) × Bool :=
  let x := closeModule x
  match dl m with
  | none => (x, false)
  | some (hasCreate, hasId) =>
    let x : Refs × Loader := (incr x.1 m, { x.2 with handle := some m })
    if hasCreate then
      let x : Refs × Loader := (x.1, { x.2 with create := some m })
      if hasId then ((x.1, { x.2 with tid := .fn m, name := m }), true)
      else (closeModule (x.1, { x.2 with tid := .null }), false)
    else (closeModule x, false)

/-- `make_obj` (SimpleDynClassLoader.h:139-148): the library whose function creates the object, `none` for NULL. -/
def makeObj (l : Loader) : Option Str := l.create

/-! ### DynClassFactoryHandler -/

/-- The base classes. -/
inductive Cls where
  | wordPen | lm | sw | pm | scorer | wu | mdata | dec | ecm | ecNb | wg | assist
  deriving DecidableEq

/-- The name in the file (DynClassFactoryHandler.cc:56, 76, 96, 117, 137, 152, 169, 186, 234, 251, 268, 285). -/
def Cls.name : Cls → Str
  | .wordPen => "BaseWordPenaltyModel".toList
  | .lm => "BaseNgramLM".toList
  | .sw => "BaseSwAligModel".toList
  | .pm => "BasePhraseModel".toList
  | .scorer => "BaseScorer".toList
  | .wu => "BaseLogLinWeightUpdater".toList
  | .mdata => "BaseTranslationMetadata".toList
  | .dec => "BaseStackDecoder".toList
  | .ecm => "BaseErrorCorrectionModel".toList
  | .ecNb => "BaseEcModelForNbUcat".toList
  | .wg => "BaseWgProcessorForAnlp".toList
  | .assist => "BaseAssistedTrans".toList

/-- The order in `init_smt` and in `release_smt` (DynClassFactoryHandler.cc:36-218). -/
def smt : List Cls := [.wordPen, .lm, .sw, .pm, .scorer, .wu, .mdata, .dec]

/-- The order of the rest of `init_smt_and_imt` (DynClassFactoryHandler.cc:221-313). -/
def imt : List Cls := [.ecm, .ecNb, .wg, .assist]

/-- Whether the block of the class stores the parameters: that of the scorer does not (DynClassFactoryHandler.cc:136-149). -/
def storesPars : Cls → Bool
  | .scorer => false
  | _ => true

/-- The handler, and the libraries that are open. -/
structure St where
  info : Info
  ld : Cls → Loader
  pars : Cls → Str
  refs : Refs

/-- A new handler. -/
def St.start : St := ⟨[], fun _ => Loader.new, fun _ => [], fun _ => 0⟩

def upd {A : Type} (f : Cls → A) (c : Cls) (a : A) : Cls → A := fun x => if x = c then a else f x

/-- `close_module` of the loader of a class. -/
def closeCls (s : St) (c : Cls) : St :=
  let r := closeModule (s.refs, s.ld c)
  { s with refs := r.1, ld := upd s.ld c r.2 }

/-- The block of a class (DynClassFactoryHandler.cc:55-73 and the others). -/
def initCls (dl : Dl) (s : St) (c : Cls) : St × Bool :=
  match getInfo s.info c.name with
  | none => (s, false)
  | some (so, p) =>
    let r := openModule dl so (s.refs, s.ld c)
    let s1 : St := { s with refs := r.1.1, ld := upd s.ld c r.1.2 }
    if r.2 then (if storesPars c then { s1 with pars := upd s1.pars c p } else s1, true)
    else (s1, false)

/-- The blocks of several classes; the first error ends the function. -/
def initList (dl : Dl) : List Cls → St → St × Bool
  | [], s => (s, true)
  | c :: cs, s =>
    let r := initCls dl s c
    if r.2 then initList dl cs r.1 else r

/-- `release_smt` (DynClassFactoryHandler.cc:206-218). -/
def releaseSmt (s : St) : St := smt.foldl closeCls s

/-- `release_smt_and_imt` (DynClassFactoryHandler.cc:304-315). -/
def releaseAll (s : St) : St := imt.foldl closeCls (releaseSmt s)

/-- `init_smt` (DynClassFactoryHandler.cc:36-203). -/
def initSmt (var lib : Str) (dl : Dl) (f : Option Str) (s : St) : St × Bool :=
  let s0 := releaseSmt s
  match load var lib f with
  | none => (s0, false)
  | some m => initList dl smt { s0 with info := m }

/-- `init_smt_and_imt` (DynClassFactoryHandler.cc:221-301). -/
def initAll (var lib : Str) (dl : Dl) (f : Option Str) (s : St) : St × Bool :=
  let r := initSmt var lib dl f s
  if r.2 then initList dl imt r.1 else r

/-- The operations, with what the file and the system are at that moment. -/
inductive Op where
  | initSmt (dl : Dl) (f : Option Str)
  | initAll (dl : Dl) (f : Option Str)
  | releaseSmt
  | releaseAll

def step (var lib : Str) (s : St) : Op → St
  | .initSmt dl f => (DynClass.initSmt var lib dl f s).1
  | .initAll dl f => (DynClass.initAll var lib dl f s).1
  | .releaseSmt => DynClass.releaseSmt s
  | .releaseAll => DynClass.releaseAll s

/-- A history of a handler. -/
def run (var lib : Str) (ops : List Op) : St := ops.foldl (step var lib) St.start

end Thot.DynClass
