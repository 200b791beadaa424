import Verif.Spec.Laws
import Verif.Spec.Wire
/-
An environment that uses the wire format.
-/
set_option autoImplicit false
namespace Banyan

variable {T : TreeTypes} {V : Type}

open Cbor in
/-- The environment with DAG-CBOR as encoding of indexes and block envelopes, and CBOR as encoding of values. -/
def Env.withWire (E : Env T V) (C : Codecs T) (cid : T.Link → Cid) (v : Codec V) : Env T V :=
  { E with
    encV := fun x => encode (v.to x)
    decV := fun b =>
      match decode b with
      | none => .error "invalid cbor"
      | some (c, _) =>
        match v.of c with
        | none => .error "invalid value"
        | some x => .ok x
    encIdx := Cbor.encIdx C
    decIdx := Cbor.decIdx C
    item := Cbor.item
    itemLinks := Cbor.itemLinks
    cid := cid
    encNode := Cbor.encNode
    decNode := Cbor.decNode }

/-- The part of `Env.Lawful` that is not about encodings: block store, cache and compression. -/
structure Env.BaseLawful (E : Env T V) : Prop where
  put_ok : ∀ s d l, (E.put s d).1 = .ok l → E.get (E.put s d).2 l = .ok d
  put_mono : ∀ s d l b, E.get s l = .ok b → E.get (E.put s d).2 l = .ok b
  cacheGet_sub : ∀ c l l' b, (E.cacheGet (E.cacheGet c l).2 l').1 = some b → (E.cacheGet c l').1 = some b
  cachePut_sub : ∀ c l b l' b', (E.cacheGet (E.cachePut c l b) l').1 = some b' →
    (l' = l ∧ b' = b) ∨ (E.cacheGet c l').1 = some b'
  unz_zfin : ∀ lvl ws, E.unz (E.zfin lvl ws) = .ok ws.flatten
  zfin_ne : ∀ lvl ws, E.zfin lvl ws ≠ []
  zlen_le : ∀ lvl ws, E.zlen lvl ws ≤ (E.zfin lvl ws).length

end Banyan
