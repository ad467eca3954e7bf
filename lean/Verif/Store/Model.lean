/-
Model of the function cache (AmpGen/Store.h) and of the sizes of aligned storage
(AmpGen/simd/utils.h).
-/
namespace AmpGen.Store

/-- `utils::aligned_size<simd_type>( n )`, AmpGen/simd/utils.h:76-78, for a type of
`W` lanes.  `n - 1` is computed in 64 bits, the number of blocks is cut to 32 bits
and the product is a 32 bit product. -/
def alignedSize (W n : Nat) : Nat :=
  W * ((1 + (if n = 0 then 2 ^ 64 - 1 else n - 1) / W) % 2 ^ 64 % 2 ^ 32) % 2 ^ 32

/-- `enum Alignment`, AmpGen/Store.h:13-15. -/
inductive Alignment
  | soA
  | aoS
  deriving DecidableEq, Repr

/-- `Store<stored_type, align>`, AmpGen/Store.h:109-113.  `m_index` is an
association list. -/
structure Store (V : Type) where
  nEntries : Nat
  nBlocks : Nat
  nFields : Nat
  store : List V
  index : List (String × List Nat)
  deriving Repr, DecidableEq

variable {V : Type}

/-- A default constructed store, AmpGen/Store.h:20-27 with both arguments 0. -/
def Store.empty : Store V := ⟨0, 0, 0, [], []⟩

/-- Position in `m_store` of `operator()( index, field )`, AmpGen/Store.h:66-70, 78-82. -/
def cell (a : Alignment) (nBlocks nFields index field : Nat) : Nat :=
  match a with
  | .soA => field * nBlocks + index
  | .aoS => index * nFields + field

/-- `operator()( index, field ) const`, AmpGen/Store.h:66-70; `none` for a read
outside `m_store`. -/
def Store.read (a : Alignment) (s : Store V) (index field : Nat) : Option V :=
  s.store[cell a s.nBlocks s.nFields index field]?

/-- Assignment through `operator()( index, field )`, AmpGen/Store.h:78-82.  A write
outside `m_store` is not represented; see `store_writes_in_bounds`. -/
def Store.write (a : Alignment) (s : Store V) (index field : Nat) (v : V) : Store V :=
  { s with store := s.store.set (cell a s.nBlocks s.nFields index field) v }

/-- `addFunctor`, AmpGen/Store.h:29-39; `vsize` is `returnTypeSize() / sizeof`. -/
def Store.addFunctor (s : Store V) (f : String × Nat) : Store V :=
  match s.index.lookup f.1 with
  | some _ => s
  | none =>
    { s with
      index := s.index ++ [(f.1, (List.range f.2).map (fun i => s.nFields + i))]
      nFields := s.nFields + f.2 }

/-- `std::vector::resize`. -/
def vecResize [Inhabited V] (l : List V) (n : Nat) : List V :=
  l.take n ++ List.replicate (n - l.length) default

/-- `resize( entries )`, AmpGen/Store.h:101-107. -/
def Store.resize [Inhabited V] (W : Nat) (s : Store V) (entries : Nat) : Store V :=
  { s with
    nEntries := entries
    nBlocks := alignedSize W entries / W
    store := vecResize s.store (alignedSize W entries / W * s.nFields) }

/-- `allocate( nEntries, functors )`, AmpGen/Store.h:51-55, 126-133. -/
def Store.allocate [Inhabited V] (W : Nat) (s : Store V) (entries : Nat)
    (functors : List (String × Nat)) : Store V :=
  (functors.foldl Store.addFunctor s).resize W entries

/-- `store( event0, index, item, N )`, AmpGen/Store.h:93-96. -/
def Store.storeItems (a : Alignment) (s : Store V) (event0 : Nat) : List Nat → List V → Store V
  | i :: is, v :: vs => (s.write a event0 i v).storeItems a event0 is vs
  | _, _ => s

/-- `FunctionCache::update`, scalar event lists, AmpGen/Store.h:184-206.  `fcn evt`
is the list of values returned for an event; `order` is the order in which the
parallel loop visits the events.  Unknown names are undefined behaviour: `none`. -/
def Store.update (a : Alignment) (s : Store V) (name : String) (fcn : Nat → List V)
    (order : List Nat) : Option (Store V) :=
  (s.index.lookup name).map fun f =>
    order.foldl (fun s evt => s.storeItems a evt f (fcn evt)) s

/-- One call `fcn( r + cacheSize * i, s, ... )` of a compiled function with an output
argument: component `j` is written to `r[ s[j] ]`
(src/CompiledExpressionBase.cpp:208-222). -/
def writeRaw (l : List V) (base : Nat) : List Nat → List V → List V
  | o :: os, v :: vs => writeRaw (l.set (base + o) v) base os vs
  | _, _ => l

/-- `stagger`, AmpGen/Store.h:155. -/
def stagger (a : Alignment) (nBlocks : Nat) : Nat :=
  match a with
  | .aoS => 1
  | .soA => nBlocks

/-- `fieldStagger`, AmpGen/Store.h:156. -/
def fieldStagger (a : Alignment) (nFields : Nat) : Nat :=
  match a with
  | .aoS => nFields
  | .soA => 1

/-- `FunctionCache::update`, block event lists, functions with an output argument:
AmpGen/Store.h:150-170 with the batch loop of src/CompiledExpressionBase.cpp:218-221. -/
def Store.updateBatch (a : Alignment) (s : Store V) (name : String) (fcn : Nat → List V)
    (order : List Nat) : Option (Store V) :=
  (s.index.lookup name).map fun f =>
    { s with store := order.foldl (fun l i => writeRaw l (fieldStagger a s.nFields * i)
      (f.map (fun o => o * stagger a s.nBlocks)) (fcn i)) s.store }

/-- `FunctionCache::update`, block event lists, functions returning one value:
AmpGen/Store.h:171-183, `rt[cacheSize*i] = fcn(...)` with `rt = data + f[0] * stagger`. -/
def Store.updateBatchValue (a : Alignment) (s : Store V) (name : String) (fcn : Nat → V)
    (order : List Nat) : Option (Store V) :=
  (s.index.lookup name).bind fun f => f.head?.map fun f0 =>
    { s with store := order.foldl (fun l i =>
      l.set (f0 * stagger a s.nBlocks + fieldStagger a s.nFields * i) (fcn i)) s.store }

end AmpGen.Store
