import Verif.Basic
import Verif.CMTool.MergeModel
import Verif.CMTool.MergeProofs
import Verif.CMTool.MergeSpec
import Verif.CMTool.MergeInv
import Verif.CMTool.MergeProps
import Verif.CMTool.Multimap
import Verif.CMTool.MatchModel
import Verif.CMTool.MatchBKProps
import Verif.CMTool.CombProofs
import Verif.CMTool.CombProps
import Verif.CMTool.MatchProps
import Verif.CMTool.ManagerModel
import Verif.CMTool.ManagerProps
import Verif.CMTool.ManagerProcess
import Verif.PMAlg.SortedModel
import Verif.PMAlg.SortedProofs
import Verif.PMAlg.SortedProps
import Verif.PMAlg.TreeModel
import Verif.PMAlg.TreeProofs
import Verif.PMAlg.TreeWalk
import Verif.PMAlg.TreeIds
import Verif.PMAlg.TreeQuery
import Verif.PMAlg.TreeConn
import Verif.PMAlg.OpsModel
import Verif.PMAlg.OpsProofs
import Verif.Track.BookKeeper
import Verif.Cluster.DBScan3DModel
import Verif.Cluster.DBScan3DProofs
import Verif.Cluster.DBScan3DProps
import Verif.Hit.GausFitCache
import Verif.Cluster.HoughModel
import Verif.Cluster.HoughProofs
import Verif.Cluster.HoughProps
import Verif.Cluster.KdTree
import Verif.MCComp.BackTrackModel
import Verif.MCComp.BackTrackProofs
import Verif.MCComp.BackTrackProps
import Verif.MCComp.MatchProps
import Verif.Hit.GaussElim
import Verif.Hit.WaveModel
import Verif.Hit.WaveProps
import Verif.Hit.WaveSmooth
import Verif.Hit.WavePeaks
import Verif.Hit.CandHit
import Verif.SpacePoint.SolverProps
import Verif.SpacePoint.TripletProps
import Verif.Cluster.SimpleModel
import Verif.Cluster.SimpleProps
import Verif.Track.TrackCand
import Verif.Geometry.HullModel
import Verif.Geometry.HullProofs
import Verif.Geometry.HullProps
import Verif.Geometry.HullQueries
import Verif.Fit.LinFit
import Verif.Geometry.PolyModel
import Verif.Geometry.PolyArea
import Verif.Geometry.PolyInside
import Verif.Geometry.PolyOther
import Verif.Voronoi.BeachModel
import Verif.Voronoi.BeachTree
import Verif.Voronoi.BeachRot
import Verif.Voronoi.BeachInsert
import Verif.Voronoi.BeachRemove
import Verif.Voronoi.BeachProps
import Verif.Voronoi.SweepModel
import Verif.Voronoi.SweepInv
import Verif.Voronoi.SweepCircle
import Verif.Voronoi.SweepSite
import Verif.Voronoi.SweepClose
import Verif.Voronoi.SweepLoop
import Verif.Voronoi.SweepStep
import Verif.Voronoi.SweepProps
import Verif.Voronoi.SweepGeom
import Verif.Voronoi.SweepFinish
import Verif.Voronoi.Boost
import Verif.Mst.Model
import Verif.Mst.Prim
import Verif.Mst.Props
import Verif.Mst.Path
import Verif.Mst.Longest
import Verif.Cluster.DBQueue
import Verif.Cluster.DBSet
import Verif.Cluster.DBNear
import Verif.Cluster3D.Builder
import Verif.Cluster3D.Params
import Verif.Cluster3D.Output
import Verif.PMAlg.OpsExtend
import Verif.PMAlg.OpsMerge
import Verif.PMAlg.OpsFlip
import Verif.PMAlg.OpsEdit
import Verif.PMAlg.AttachModel
import Verif.PMAlg.AttachProofs
import Verif.PMAlg.AttachProps
import Verif.TrajCluster.Model
import Verif.TrajCluster.Store
import Verif.TrajCluster.Split
import Verif.TrajCluster.VtxModel
import Verif.TrajCluster.Vertex
import Verif.TrajCluster.Vertex3
import Verif.TrajCluster.VtxStoreChk
import Verif.TrajCluster.Merge
import Verif.TrajCluster.MergeThm
import Verif.TrajCluster.Small
import Verif.TrajCluster.Small2
import Verif.Hit.Rff
import Verif.Hit.RffRegion
import Verif.Hit.RffProofs
import Verif.Hit.RffProps
import Verif.Hit.CandShape
import Verif.Hit.CandShapeProofs
import Verif.Hit.CandShapeProps
import Verif.Hit.CandMorph
import Verif.Hit.CandRegions
import Verif.Cluster.BlurModel
import Verif.Cluster.BlurProofs
import Verif.Cluster.BlurProps
import Verif.Cluster.BlurImage
import Verif.Cluster.BlurConv
import Verif.Cluster.MergeAlg
import Verif.SpacePoint.TimeSort
import Verif.SpacePoint.TimeSortProps
import Verif.Cluster.MatchTQ
import Verif.Track.StitchModel
import Verif.Track.StitchProofs
import Verif.Track.StitchProps
import Verif.SpacePoint.SpModel
import Verif.SpacePoint.SpProofs
import Verif.SpacePoint.SpFit
import Verif.SpacePoint.SpCombos
import Verif.SpacePoint.SpOut
import Verif.SpacePoint.SpSel
import Verif.SpacePoint.SpTrack
import Verif.CMTool.HelperModel
import Verif.CMTool.HelperProps
import Verif.Calo.TrackCaloModel
import Verif.Calo.TrackCaloProps
import Verif.Mcs.McsModel
import Verif.Mcs.McsProps
import Verif.Track.CosmicModel
import Verif.Track.CosmicStitch
import Verif.Track.CosmicProps
import Verif.Hit.DisambigModel
import Verif.Hit.DisambigProps
import Verif.Hit.ApaGeoModel
import Verif.Hit.ApaGeoProps
import Verif.Track.TtaModel
import Verif.Track.TtaProps
import Verif.Track.VtxFitModel
import Verif.Track.VtxFitProps
import Verif.PMAlg.TagModel
import Verif.PMAlg.TagProps
import Verif.Track.TtaBins
import Verif.PMAlg.TreeShift
import Verif.PMAlg.StitchProps
import Verif.Shower.EmGroupProps
import Verif.Shower.EmHitProps
import Verif.Shower.EmShowerProps
import Verif.Shower.EmFitProps
import Verif.Hit.GausModel
import Verif.Hit.GausProps
import Verif.Calo.GnocchiModel
import Verif.Calo.GnocchiProps
import Verif.Calo.CaloModProps
import Verif.Calo.AlgModel
import Verif.Calo.AlgProps
import Verif.CCrawl.StoreModel
import Verif.CCrawl.StoreProps
import Verif.CCrawl.HistProps
import Verif.CCrawl.MergeProps
import Verif.CCrawl.RemoveProps
import Verif.CCrawl.RangeModel
import Verif.CCrawl.RangeProps
import Verif.KalFit.Model
import Verif.KalFit.Proofs
import Verif.KalFit.Props
import Verif.Book.Model
import Verif.Book.Props
import Verif.SimpleHit.FFTModel
import Verif.SimpleHit.FFTProps
import Verif.SimpleHit.TTModel
import Verif.SimpleHit.TTProps
import Verif.SimpleHit.RawModel
import Verif.SimpleHit.RawProps
import Verif.CCHit.Model
import Verif.CCHit.Thm
import Verif.LineMerge.Model
import Verif.LineMerge.Thm
import Verif.SmallClus.Model
import Verif.SmallClus.Thm
import Verif.CMAlgos.Model
import Verif.CMAlgos.Thm
import Verif.DPHit.Model
import Verif.DPHit.Thm
import Verif.DPHit.Thm2
import Verif.DPHit.Thm3
import Verif.DPHit.Thm4
import Verif.DataProv.Model
import Verif.DataProv.Thm
import Verif.DataProv.Thm2
import Verif.DataProv.Thm3
import Verif.PmaUtil.Model
import Verif.PmaUtil.Thm
import Verif.PmaUtil.Thm2
import Verif.PmaUtil.Thm3
import Verif.ClusMatch.Model
import Verif.ClusMatch.Thm
import Verif.ClusMatch.Thm2
import Verif.PrimVtx.Model
import Verif.PrimVtx.Thm
import Verif.PrimVtx.Thm2
import Verif.PrimVtx.Thm3
import Verif.GFPlane.Model
import Verif.GFPlane.Thm
import Verif.GFPlane.Thm2
import Verif.Seg2D.Model
import Verif.Seg2D.Lem
import Verif.Seg2D.Thm
import Verif.Seg2D.Thm2
import Verif.Seg2D.Thm3
import Verif.Seg2D.Thm4
import Verif.Seg2D.Module
import Verif.TrkSep.Model
import Verif.TrkSep.Thm
import Verif.TrkSep.Thm2
import Verif.TrkSep.Thm3
import Verif.MCHit.Thm
import Verif.SCE.Model
import Verif.SCE.Thm
import Verif.SCE.Thm2
import Verif.LineClus.Model
import Verif.LineClus.Thm
import Verif.PmaNode.Model
import Verif.PmaNode.Thm
import Verif.PmaNode.Thm2
import Verif.DBC3D.Model
import Verif.DBC3D.Thm
import Verif.DBC3D.Thm2
import Verif.ShwFinder.Model
import Verif.ShwFinder.Thm
import Verif.Cheat.Model
import Verif.Cheat.Thm
import Verif.ProdMisc.Model
import Verif.ProdMisc.Thm
import Verif.ProdMisc.Thm2
import Verif.PmaVtx.Model
import Verif.PmaVtx.Thm
import Verif.PmaVtx.Thm2
import Verif.VtxAdd.Model
import Verif.VtxAdd.Thm
import Verif.Cheat2.Model
import Verif.Cheat2.Thm
import Verif.Cheat2.Thm2
import Verif.SmallMods.Model
import Verif.SmallMods.Thm
