/-!
# The parsed JPEG

`JPEGData` and its parts (c/include/brunsli/jpeg_data.h:120-253).  Integers are natural numbers (coefficients are
integers); `original_jpg`, `original_jpg_size` and `error` are left out.
-/

namespace Brunsli

/-- `JPEGQuantTable` (c/include/brunsli/jpeg_data.h:121-131). -/
structure QuantTable where
  values : List Nat
  precision : Nat
  index : Nat
  isLast : Bool
deriving DecidableEq, Repr

/-- `JPEGHuffmanCode` (c/include/brunsli/jpeg_data.h:134-144); 17 counts and 257 values. -/
structure HuffCode where
  counts : List Nat
  values : List Nat
  slotId : Nat
  isLast : Bool
deriving DecidableEq, Repr

/-- `JPEGComponentScanInfo` (c/include/brunsli/jpeg_data.h:147-151). -/
structure ScanComp where
  compIdx : Nat
  dcTbl : Nat
  acTbl : Nat
deriving DecidableEq, Repr

/-- `JPEGScanInfo` (c/include/brunsli/jpeg_data.h:154-183); `comps` has `num_components` elements, `extraZeroRuns`
holds pairs of `block_idx` and `num_extra_zero_runs`. -/
structure ScanInfo where
  ss : Nat
  se : Nat
  ah : Nat
  al : Nat
  comps : List ScanComp
  resetPoints : List Nat
  extraZeroRuns : List (Nat × Nat)
deriving DecidableEq, Repr

/-- `JPEGComponent` (c/include/brunsli/jpeg_data.h:188-213); `num_blocks` is the product of width and height. -/
structure Component where
  id : Nat
  hSamp : Nat
  vSamp : Nat
  quantIdx : Nat
  width : Nat
  height : Nat
  coeffs : List Int
deriving DecidableEq, Repr

/-- `JPEGData` (c/include/brunsli/jpeg_data.h:216-253); `max_h_samp_factor`, `max_v_samp_factor`, `MCU_rows` and
`MCU_cols` are functions of the rest. -/
structure JpegData where
  width : Nat
  height : Nat
  version : Nat
  restartInterval : Nat
  appData : List (List Nat)
  comData : List (List Nat)
  quant : List QuantTable
  huffman : List HuffCode
  components : List Component
  scans : List ScanInfo
  markerOrder : List Nat
  interMarker : List (List Nat)
  tailData : List Nat
  hasZeroPaddingBit : Bool
  paddingBits : List Nat
deriving DecidableEq, Repr

end Brunsli
