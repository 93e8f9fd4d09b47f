import Verif.Model.Basic
import Verif.Model.Crc
import Verif.Model.Chs
import Verif.Model.BitRing
import Verif.Model.Mfm
import Verif.Model.System34
import Verif.Model.BitTrack
import Verif.Props.Chs
import Verif.Props.Crc
import Verif.Props.Mfm
import Verif.Props.ClockMap
import Verif.Props.Track
import Verif.Props.Deleted
import Verif.Props.Search
import Verif.Model.RangeCheck
import Verif.Props.Ring
import Verif.Model.OddEven
import Verif.Model.StandardFormat
import Verif.Props.OddEven
import Verif.Props.StandardFormat
import Verif.Model.MetaSector
import Verif.Props.MetaSector
import Verif.Props.ReadTrack
import Verif.Model.Disk
import Verif.Model.Raw
import Verif.Props.Disk
import Verif.Props.Raw
import Verif.Model.SectorView
import Verif.Props.SectorView
import Verif.Model.Amiga
import Verif.Spec.Amiga
import Verif.Proofs.Amiga
import Verif.Props.Amiga
import Verif.Model.Lock
import Verif.Spec.Lock
import Verif.Proofs.Lock
import Verif.Props.Lock
import Verif.Props.LockSeq
import Verif.Proofs.Adf
import Verif.Props.Adf
import Verif.Props.Analysis
import Verif.Model.Pce
import Verif.Spec.Pce
import Verif.Spec.Pri
import Verif.Props.Pce
import Verif.Props.Pri
import Verif.Model.Psi
import Verif.Spec.Psi
import Verif.Proofs.MetaDisk
import Verif.Proofs.Psi
import Verif.Props.Psi
import Verif.Model.Imd
import Verif.Spec.Imd
import Verif.Proofs.Imd
import Verif.Props.Imd
import Verif.Model.NaturalSort
import Verif.Spec.NaturalSort
import Verif.Proofs.NaturalSort
import Verif.Props.NaturalSort
import Verif.Model.Pfi
import Verif.Spec.Pfi
import Verif.Proofs.Pfi
import Verif.Props.Pfi
import Verif.Model.F86
import Verif.Spec.F86
import Verif.Proofs.F86
import Verif.Proofs.F86File
import Verif.Proofs.F86Sect
import Verif.Proofs.F86Cut
import Verif.Props.F86
import Verif.Model.Lzhuf
import Verif.Spec.Lzhuf
import Verif.Proofs.LzhufTree
import Verif.Proofs.LzhufRebuild
import Verif.Proofs.LzhufCreate
import Verif.Proofs.LzhufCode
import Verif.Proofs.LzhufExpand
import Verif.Props.Lzhuf
import Verif.Model.Lzw
import Verif.Spec.Lzw
import Verif.Proofs.Lzw
import Verif.Proofs.LzwRun
import Verif.Props.Lzw
import Verif.Model.Td0
import Verif.Spec.Td0
import Verif.Proofs.Td0Crc
import Verif.Proofs.Td0
import Verif.Proofs.Td0Load
import Verif.Props.Td0
import Verif.Model.BitLoad
import Verif.Model.Hfe
import Verif.Spec.BitLoad
import Verif.Spec.Hfe
import Verif.Proofs.BitLoad
import Verif.Proofs.BitDisk
import Verif.Proofs.Hfe
import Verif.Props.Hfe
import Verif.Model.Hxc
import Verif.Spec.Hxc
import Verif.Proofs.Hxc
import Verif.Props.Hxc
import Verif.Model.Tc
import Verif.Spec.Tc
import Verif.Proofs.Tc
import Verif.Props.Tc
import Verif.Model.Format
import Verif.Spec.FormatDisk
import Verif.Proofs.FormatDisk
import Verif.Props.FormatDisk
import Verif.Model.DateTime
import Verif.Spec.DateTime
import Verif.Proofs.DateTime
import Verif.Props.DateTime
import Verif.Model.TreeMap
import Verif.Spec.TreeMap
import Verif.Proofs.TreeMap
import Verif.Props.TreeMap
import Verif.Model.FileTree
import Verif.Spec.FileTree
import Verif.Proofs.FileTree
import Verif.Props.FileTree
import Verif.Props.Pll
import Verif.Props.PllRun
import Verif.Props.Flux
import Verif.Props.FluxTrack
import Verif.Props.FluxMeasured
import Verif.Props.Scp
import Verif.Props.FluxHinted
import Verif.Props.Kryo
import Verif.Props.KryoCase
import Verif.Props.Detect
import Verif.Props.DetectSaved
import Verif.Props.DetectSets
import Verif.Props.FluxStats
import Verif.Props.Fm
import Verif.Props.FmCase
import Verif.Props.FmCodec
import Verif.Proofs.KryoTimes
import Verif.Props.FmFlux
import Verif.Props.Mfi
import Verif.Props.Ipf
import Verif.Props.IpfCase
import Verif.Props.IpfRead
import Verif.Props.Sauce
import Verif.Props.SauceCase
import Verif.Props.SauceMake
import Verif.Props.SauceEx
import Verif.Props.Caps
import Verif.Props.CapsFormats
import Verif.Props.CapsExt
import Verif.Props.CapsTight
import Verif.Props.CatalogPos
import Verif.Props.CatalogScan
import Verif.Props.CatalogMap
import Verif.Props.Writes
import Verif.Props.Dump
import Verif.Props.VizBase
import Verif.Props.VizRings
import Verif.Props.VizData
import Verif.Props.VizDraw
import Verif.Props.VizHit
import Verif.Props.Async
import Verif.Props.Rates
import Verif.Props.ElementMap
import Verif.Props.F86Length
import Verif.Props.Picture
import Verif.Props.Text
import Verif.Props.Resolution
import Verif.Props.RawLayout
import Verif.Props.NativeTree
import Verif.Props.Boot
import Verif.Props.Raster
import Verif.Props.FormatResolution
import Verif.Props.WordRead
import Verif.Props.Gcr
import Verif.Props.FmFormat
