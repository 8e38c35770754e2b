import Verif.Model.Factory
/-!
# Model of the registry of component factories

Source: `MParT/MapFactory.h`, `src/MapFactory.cpp`, `src/MapFactoryImpl1.cpp` … `src/MapFactoryImpl18.cpp`.

Every file `MapFactoryImpl*.cpp` registers two instances of its function template from the initialisers of static variables. Which of the files are
linked into a program and the order in which the initialisers run are not determined by the code.

Simplifications
* the order of the keys in `std::map` does not matter: the registry is a list of pairs with different keys.
-/
namespace MParT
namespace MapFactory

/-- `OptionsKeyType`, MapFactory.h 123: basis, linearised or not, bijector, quadrature. -/
abbrev Key := BasisType × Bool × PosFuncType × QuadType

/-- The classes a `CreateComponentImpl_…<HostSpace, PosFuncType>` uses: basis, inside a `LinearizedBasis` or not, bijector, quadrature. MapFactoryImpl1.cpp 16–31 to MapFactoryImpl18.cpp. -/
abbrev Classes := BasisType × Bool × PosFuncType × QuadType

/-- The registrations for the host: the key, and the classes used by the function that is registered (its variables `basis1d` and `quad` and its
template argument). MapFactoryImpl1.cpp 33–34 to MapFactoryImpl18.cpp 31–32. -/
def registrations : List (Key × Classes) := [
  -- MapFactoryImpl1.cpp 33–34
  ((.physicistHermite, false, .exp, .adaptiveClenshawCurtis), (.physicistHermite, false, .exp, .adaptiveClenshawCurtis)), ((.physicistHermite, false, .softPlus, .adaptiveClenshawCurtis), (.physicistHermite, false, .softPlus, .adaptiveClenshawCurtis)),
  -- MapFactoryImpl2.cpp 29–30
  ((.physicistHermite, false, .exp, .clenshawCurtis), (.physicistHermite, false, .exp, .clenshawCurtis)), ((.physicistHermite, false, .softPlus, .clenshawCurtis), (.physicistHermite, false, .softPlus, .clenshawCurtis)),
  -- MapFactoryImpl3.cpp 28–29
  ((.physicistHermite, false, .exp, .adaptiveSimpson), (.physicistHermite, false, .exp, .adaptiveSimpson)), ((.physicistHermite, false, .softPlus, .adaptiveSimpson), (.physicistHermite, false, .softPlus, .adaptiveSimpson)),
  -- MapFactoryImpl4.cpp 30–31
  ((.probabilistHermite, false, .exp, .adaptiveClenshawCurtis), (.probabilistHermite, false, .exp, .adaptiveClenshawCurtis)), ((.probabilistHermite, false, .softPlus, .adaptiveClenshawCurtis), (.probabilistHermite, false, .softPlus, .adaptiveClenshawCurtis)),
  -- MapFactoryImpl5.cpp 28–29
  ((.probabilistHermite, false, .exp, .clenshawCurtis), (.probabilistHermite, false, .exp, .clenshawCurtis)), ((.probabilistHermite, false, .softPlus, .clenshawCurtis), (.probabilistHermite, false, .softPlus, .clenshawCurtis)),
  -- MapFactoryImpl6.cpp 28–29
  ((.probabilistHermite, false, .exp, .adaptiveSimpson), (.probabilistHermite, false, .exp, .adaptiveSimpson)), ((.probabilistHermite, false, .softPlus, .adaptiveSimpson), (.probabilistHermite, false, .softPlus, .adaptiveSimpson)),
  -- MapFactoryImpl7.cpp 30–31
  ((.hermiteFunctions, false, .exp, .adaptiveClenshawCurtis), (.hermiteFunctions, false, .exp, .adaptiveClenshawCurtis)), ((.hermiteFunctions, false, .softPlus, .adaptiveClenshawCurtis), (.hermiteFunctions, false, .softPlus, .adaptiveClenshawCurtis)),
  -- MapFactoryImpl8.cpp 28–29
  ((.hermiteFunctions, false, .exp, .clenshawCurtis), (.hermiteFunctions, false, .exp, .clenshawCurtis)), ((.hermiteFunctions, false, .softPlus, .clenshawCurtis), (.hermiteFunctions, false, .softPlus, .clenshawCurtis)),
  -- MapFactoryImpl9.cpp 28–29
  ((.hermiteFunctions, false, .exp, .adaptiveSimpson), (.hermiteFunctions, false, .exp, .adaptiveSimpson)), ((.hermiteFunctions, false, .softPlus, .adaptiveSimpson), (.hermiteFunctions, false, .softPlus, .adaptiveSimpson)),
  -- MapFactoryImpl10.cpp 33–34
  ((.physicistHermite, true, .exp, .adaptiveClenshawCurtis), (.physicistHermite, true, .exp, .adaptiveClenshawCurtis)), ((.physicistHermite, true, .softPlus, .adaptiveClenshawCurtis), (.physicistHermite, true, .softPlus, .adaptiveClenshawCurtis)),
  -- MapFactoryImpl11.cpp 31–32
  ((.physicistHermite, true, .exp, .clenshawCurtis), (.physicistHermite, true, .exp, .clenshawCurtis)), ((.physicistHermite, true, .softPlus, .clenshawCurtis), (.physicistHermite, true, .softPlus, .clenshawCurtis)),
  -- MapFactoryImpl12.cpp 30–31
  ((.physicistHermite, true, .exp, .adaptiveSimpson), (.physicistHermite, true, .exp, .adaptiveSimpson)), ((.physicistHermite, true, .softPlus, .adaptiveSimpson), (.physicistHermite, true, .softPlus, .adaptiveSimpson)),
  -- MapFactoryImpl13.cpp 32–33
  ((.probabilistHermite, true, .exp, .adaptiveClenshawCurtis), (.probabilistHermite, true, .exp, .adaptiveClenshawCurtis)), ((.probabilistHermite, true, .softPlus, .adaptiveClenshawCurtis), (.probabilistHermite, true, .softPlus, .adaptiveClenshawCurtis)),
  -- MapFactoryImpl14.cpp 30–31
  ((.probabilistHermite, true, .exp, .clenshawCurtis), (.probabilistHermite, true, .exp, .clenshawCurtis)), ((.probabilistHermite, true, .softPlus, .clenshawCurtis), (.probabilistHermite, true, .softPlus, .clenshawCurtis)),
  -- MapFactoryImpl15.cpp 30–31
  ((.probabilistHermite, true, .exp, .adaptiveSimpson), (.probabilistHermite, true, .exp, .adaptiveSimpson)), ((.probabilistHermite, true, .softPlus, .adaptiveSimpson), (.probabilistHermite, true, .softPlus, .adaptiveSimpson)),
  -- MapFactoryImpl16.cpp 30–31
  ((.hermiteFunctions, true, .exp, .adaptiveSimpson), (.hermiteFunctions, true, .exp, .adaptiveSimpson)), ((.hermiteFunctions, true, .softPlus, .adaptiveSimpson), (.hermiteFunctions, true, .softPlus, .adaptiveSimpson)),
  -- MapFactoryImpl17.cpp 30–31
  ((.hermiteFunctions, true, .exp, .clenshawCurtis), (.hermiteFunctions, true, .exp, .clenshawCurtis)), ((.hermiteFunctions, true, .softPlus, .clenshawCurtis), (.hermiteFunctions, true, .softPlus, .clenshawCurtis)),
  -- MapFactoryImpl18.cpp 31–32
  ((.hermiteFunctions, true, .exp, .adaptiveClenshawCurtis), (.hermiteFunctions, true, .exp, .adaptiveClenshawCurtis)), ((.hermiteFunctions, true, .softPlus, .adaptiveClenshawCurtis), (.hermiteFunctions, true, .softPlus, .adaptiveClenshawCurtis))]

/-- `std::map::insert`: an existing key keeps its value. E.g. MapFactoryImpl1.cpp 33. -/
def register (map : List (Key × Classes)) (e : Key × Classes) : List (Key × Classes) :=
  if map.any (fun x => x.1 == e.1) then map else map ++ [e]

/-- The registry after the initialisers have run in the given order. `GetFactoryMap()`, MapFactory.h 141–147. -/
def initialised (regs : List (Key × Classes)) : List (Key × Classes) := regs.foldl register []

/-- `GetFactoryFunction(opts)`, MapFactory.h 127–139. -/
def getFactoryFunction (map : List (Key × Classes)) (opts : MapOptions) : Res Classes :=
  match map.find? (fun x => x.1 == (opts.basisType, isLinearized opts, opts.posFuncType, opts.quadType)) with
  | some x => .ok x.2
  | none => .throw

/-- `basis1d`, e.g. MapFactoryImpl1.cpp 19, MapFactoryImpl7.cpp 16, MapFactoryImpl10.cpp 19. -/
noncomputable def basis1d (cl : Classes) (opts : MapOptions) : Basis1d :=
  if cl.2.1 then LinearizedBasis.ofBounds (plainClass { opts with basisType := cl.1 }) opts.basisLB opts.basisUB
  else plainClass { opts with basisType := cl.1 }

/-- The registered function with the given classes, e.g. MapFactoryImpl1.cpp 16–31. -/
noncomputable def createComponentImpl (cl : Classes) (mset : FixedSet) (opts : MapOptions) (mem : Nat → Option ℝ) (work : List ℝ) :
    Res (CMap × List ℝ) := do
  let quad ← quadrature { opts with quadType := cl.2.2.2 }
  let expansion ← Worker.ofFixed mset
  let output : MonotoneComponent :=
    ⟨expansion, (basis1d cl opts).read (maxOrder mset), posFunc { opts with posFuncType := cl.2.2.1 }, quad, opts.contDeriv, opts.nugget⟩
  let n ← mset.size
  .ok (output.obj ((List.range expansion.cacheSize).map mem) work, List.replicate n 0)

/-- `CreateComponent(mset, opts)`, MapFactory.cpp 19–23, with the registry as argument. -/
noncomputable def createComponentFrom (map : List (Key × Classes)) (mset : FixedSet) (opts : MapOptions) (mem : Nat → Option ℝ) (work : List ℝ) :
    Res (CMap × List ℝ) := do
  let cl ← getFactoryFunction map opts
  createComponentImpl cl mset opts mem work

end MapFactory
end MParT
